import Verif.Model.Heap
import Mathlib.Data.List.Forall2
import Mathlib.Order.Basic
import Mathlib.Data.Nat.Basic
/-!
# C01: copies are isolated
-/
namespace Mocat.Props
open Mocat.Objects

variable {A : Type}

/-- Heaps as Python can produce them: nothing beyond `next`. -/
def FreeBeyond (h : Heap A) : Prop := ∀ r, h.next ≤ r → h.obj r = none

theorem obj_put (h : Heap A) (r s : ℕ) (o : Obj A) : (h.put r o).obj s = if s = r then some o else h.obj s := rfl

theorem obj_assign_ne (h : Heap A) {r s : ℕ} (k v) (hne : s ≠ r) : (assign h r k v).obj s = h.obj s := by
  unfold assign
  cases h.obj r with
  | none => rfl
  | some o => simp [obj_put, hne]

theorem obj_delete_ne (h : Heap A) {r s : ℕ} (k) (hne : s ≠ r) : (delete h r k).obj s = h.obj s := by
  unfold delete
  cases h.obj r with
  | none => rfl
  | some o => simp [obj_put, hne]

theorem next_assign (h : Heap A) (r k v) : (assign h r k v).next = h.next := by
  unfold assign; cases h.obj r <;> rfl

theorem next_delete (h : Heap A) (r k) : (delete h r k).next = h.next := by
  unfold delete; cases h.obj r <;> rfl

theorem lookup_set (o : Obj A) (k k' : String) (v : HVal A) :
    List.lookup k' (Obj.set o k v) = if k' = k then some v else List.lookup k' o := by
  induction o with
  | nil =>
    simp only [Obj.set, List.lookup]
    by_cases h : k' = k
    · simp [h]
    · simp [h, beq_eq_false_iff_ne.mpr h]
  | cons a o ih =>
    obtain ⟨a, b⟩ := a
    simp only [Obj.set]
    by_cases hka : k = a
    · subst hka
      simp only [if_true, List.lookup]
      by_cases h : k' = k
      · simp [h]
      · simp [h, beq_eq_false_iff_ne.mpr h]
    · simp only [if_neg hka, List.lookup]
      by_cases h : k' = a
      · subst h
        simp [Ne.symm hka]
      · simp only [beq_eq_false_iff_ne.mpr h]
        exact ih

theorem exec_frame (a : ℕ) (p : List (Cmd A)) : ∀ (c : Heap A × List ℕ), a < c.1.next → a ∉ c.2 →
    (exec c p).1.obj a = c.1.obj a := by
  induction p with
  | nil => intros; rfl
  | cons cmd p ih =>
    intro c hlt hmem
    have hstep : a < (step c cmd).1.next ∧ a ∉ (step c cmd).2 ∧ (step c cmd).1.obj a = c.1.obj a := by
      cases cmd with
      | assign i k v =>
        simp only [step]
        cases hi : c.2[i]? with
        | none => exact ⟨hlt, hmem, rfl⟩
        | some r =>
          have hne : a ≠ r := by rintro rfl; exact hmem (List.mem_of_getElem? hi)
          exact ⟨by rw [next_assign]; exact hlt, hmem, obj_assign_ne _ _ _ hne⟩
      | delete i k =>
        simp only [step]
        cases hi : c.2[i]? with
        | none => exact ⟨hlt, hmem, rfl⟩
        | some r =>
          have hne : a ≠ r := by rintro rfl; exact hmem (List.mem_of_getElem? hi)
          exact ⟨by rw [next_delete]; exact hlt, hmem, obj_delete_ne _ _ hne⟩
      | copy i =>
        simp only [step]
        cases hi : c.2[i]? with
        | none => exact ⟨hlt, hmem, rfl⟩
        | some r =>
          have hne : a ≠ c.1.next := by omega
          refine ⟨by simp only [copy, Heap.alloc]; omega, ?_, by simp [copy, Heap.alloc, hne]⟩
          simp [hmem, hne]
    have := ih (step c cmd) hstep.1 hstep.2.1
    exact this.trans hstep.2.2

/-- C01: the copy has the same bindings and the original is unchanged. -/
theorem C01_copy_same (h : Heap A) (a : ℕ) (ha : a < h.next) (k : String) :
    attr (copy h a) h.next k = attr h a k ∧ attr (copy h a) a k = attr h a k := by
  have hne : a ≠ h.next := by omega
  constructor
  · simp only [attr, copy, Heap.alloc, if_true]
    cases h.obj a <;> rfl
  · simp [attr, copy, Heap.alloc, hne]

/-- C01: after `b = a.copy()`, whatever is done through `b` and further copies of it (assignments, deletions, copies, in
any number and order), every attribute read through `a` is unchanged. -/
theorem C01_isolated (h : Heap A) (a : ℕ) (ha : a < h.next) (p : List (Cmd A)) (k : String) :
    attr (exec (copy h a, [h.next]) p).1 a k = attr h a k := by
  have hne : a ≠ h.next := by omega
  have := exec_frame a p (copy h a, [h.next]) (by simp only [copy, Heap.alloc]; omega) (by simp [hne])
  rw [attr, this]
  exact (C01_copy_same h a ha k).2

/-- C01, the other direction: whatever is done through `a` leaves `b` as it was when copied. -/
theorem C01_isolated_back (h : Heap A) (a : ℕ) (ha : a < h.next) (p : List (Cmd A)) (k : String) :
    attr (exec (copy h a, [a]) p).1 h.next k = attr h a k := by
  have hne : a ≠ h.next := by omega
  have := exec_frame h.next p (copy h a, [a]) (by simp [copy, Heap.alloc]) (by simp [hne.symm])
  rw [attr, this]
  exact (C01_copy_same h a ha k).1

/-- C01: a nested cdict is shared: an assignment through `b.inner` is read through `a.inner`. -/
theorem C01_nested_shared (h : Heap A) (a i : ℕ) (ha : a < h.next) (hi : i < h.next) (inner k : String) (v : HVal A)
    (hin : attr h a inner = some (.ref i)) (hobj : (h.obj i).isSome) :
    readPath (copy h a) (.ref h.next) [inner] = some (.ref i) ∧
    attr (assign (copy h a) i k v) i k = some v ∧
    (i ≠ a → readPath (assign (copy h a) i k v) (.ref a) [inner, k] = some v) := by
  have hne : i ≠ h.next := by omega
  obtain ⟨o, ho⟩ := Option.isSome_iff_exists.mp hobj
  have h0 : (copy h a).obj i = some o := by simp [copy, Heap.alloc, hne, ho]
  have h1 : attr (assign (copy h a) i k v) i k = some v := by
    simp [attr, assign, h0, obj_put, lookup_set]
  refine ⟨?_, h1, ?_⟩
  · simp only [readPath]
    rw [(C01_copy_same h a ha inner).1, hin]
  · intro hia
    have h2 : attr (assign (copy h a) i k v) a inner = some (.ref i) := by
      rw [attr, obj_assign_ne _ _ _ (Ne.symm hia)]
      exact ((C01_copy_same h a ha inner).2).trans hin
    simp only [readPath, h2, h1]

/-! ## deepcopy -/

/-- All references stored in the heap are below `next`. -/
def Closed (h : Heap A) : Prop := ∀ r o, h.obj r = some o → r < h.next ∧ ∀ k s, (k, HVal.ref s) ∈ o → s < h.next

/-- `v'` is the copy of `v` according to the memo. -/
def Copied (m : ℕ → Option ℕ) : HVal A → HVal A → Prop
  | .atom a, .atom b => a = b
  | .ref r, .ref r' => m r = some r'
  | _, _ => False

/-- `o'` has the same attribute names as `o`, bound to the copies. -/
def CopiedObj (m : ℕ → Option ℕ) (o o' : Obj A) : Prop :=
  List.Forall₂ (fun p q => p.1 = q.1 ∧ Copied m p.2 q.2) o o'

theorem Copied.mono {m m' : ℕ → Option ℕ} (hm : ∀ r r', m r = some r' → m' r = some r') {v v' : HVal A}
    (h : Copied m v v') : Copied m' v v' := by
  match v, v', h with
  | .atom _, .atom _, h => exact h
  | .ref _, .ref _, h => exact hm _ _ h

theorem CopiedObj.mono {m m' : ℕ → Option ℕ} (hm : ∀ r r', m r = some r' → m' r = some r') {o o' : Obj A}
    (h : CopiedObj m o o') : CopiedObj m' o o' :=
  List.Forall₂.imp (fun _ _ hpq => ⟨hpq.1, hpq.2.mono hm⟩) h

/-- What one deep copy does, relative to the heap `h0` before the outermost call (`b = h0.next`). -/
structure Good (h0 h : Heap A) (m : ℕ → Option ℕ) (h' : Heap A) (m' : ℕ → Option ℕ) : Prop where
  next_le : h.next ≤ h'.next
  frame : ∀ r < h.next, h'.obj r = h.obj r
  memo_mono : ∀ r r', m r = some r' → m' r = some r'
  fresh : ∀ r r', m' r = some r' → m r = none → h.next ≤ r' ∧ r' < h'.next
  done : ∀ r r', m' r = some r' → m r = none →
    ∃ o o', h0.obj r = some o ∧ h'.obj r' = some o' ∧ CopiedObj m' o o'
  image : ∀ r', h.next ≤ r' → r' < h'.next → ∃ r, m' r = some r' ∧ m r = none
  free : FreeBeyond h → FreeBeyond h'

theorem Good.refl (h0 h : Heap A) (m) : Good h0 h m h m :=
  ⟨le_refl _, fun _ _ => rfl, fun _ _ h => h, fun r r' h1 h2 => by simp [h1] at h2, fun r r' h1 h2 => by simp [h1] at h2,
    fun r' h1 h2 => by omega, fun h => h⟩

theorem Good.trans {h0 h1 h2 h3 : Heap A} {m1 m2 m3} (a : Good h0 h1 m1 h2 m2) (b : Good h0 h2 m2 h3 m3) :
    Good h0 h1 m1 h3 m3 := by
  refine ⟨a.next_le.trans b.next_le, ?_, fun r r' h => b.memo_mono _ _ (a.memo_mono _ _ h), ?_, ?_, ?_,
    fun h => b.free (a.free h)⟩
  · intro r hr; rw [b.frame r (hr.trans_le a.next_le), a.frame r hr]
  · intro r r' h3 h1
    cases h2 : m2 r with
    | none => have := b.fresh r r' h3 h2; exact ⟨a.next_le.trans this.1, this.2⟩
    | some s =>
      have hs := b.memo_mono _ _ h2
      rw [h3, Option.some.injEq] at hs
      subst hs
      have := a.fresh r r' h2 h1
      exact ⟨this.1, this.2.trans_le b.next_le⟩
  · intro r r' h3 h1
    cases h2 : m2 r with
    | none => exact b.done r r' h3 h2
    | some s =>
      have hs := b.memo_mono _ _ h2
      rw [h3, Option.some.injEq] at hs
      subst hs
      obtain ⟨o, o', ho, ho', hc⟩ := a.done r r' h2 h1
      refine ⟨o, o', ho, ?_, hc.mono b.memo_mono⟩
      rw [b.frame r' (a.fresh r r' h2 h1).2]; exact ho'
  · intro r' hr1 hr2
    by_cases hlt : r' < h2.next
    · obtain ⟨r, e1, e2⟩ := a.image r' hr1 hlt
      exact ⟨r, b.memo_mono _ _ e1, e2⟩
    · obtain ⟨r, e1, e2⟩ := b.image r' (by omega) hr2
      refine ⟨r, e1, ?_⟩
      cases hm : m1 r with
      | none => rfl
      | some s => have := a.memo_mono _ _ hm; simp [e2] at this

/-- `h` extends `h0`: same objects below `h0.next`. -/
def Ext (h0 h : Heap A) : Prop := h0.next ≤ h.next ∧ ∀ r < h0.next, h.obj r = h0.obj r

theorem Good.ext {h0 h h' : Heap A} {m m'} (g : Good h0 h m h' m') (e : Ext h0 h) : Ext h0 h' :=
  ⟨e.1.trans g.next_le, fun r hr => by rw [g.frame r (hr.trans_le e.1), e.2 r hr]⟩

theorem mapFields_good (h0 : Heap A)
    (f : Heap A → (ℕ → Option ℕ) → HVal A → Option (Heap A × (ℕ → Option ℕ) × HVal A))
    (hf : ∀ h m v h' m' v', Ext h0 h → (∀ s, v = .ref s → s < h0.next) → f h m v = some (h', m', v') →
      Good h0 h m h' m' ∧ Copied m' v v') :
    ∀ (o : Obj A) (h : Heap A) (m) (h' m' o'), Ext h0 h → (∀ k s, (k, HVal.ref s) ∈ o → s < h0.next) →
      mapFields f h m o = some (h', m', o') → Good h0 h m h' m' ∧ CopiedObj m' o o' := by
  intro o
  induction o with
  | nil =>
    intro h m h' m' o' _ _ heq
    simp only [mapFields, Option.some.injEq, Prod.mk.injEq] at heq
    obtain ⟨rfl, rfl, rfl⟩ := heq
    exact ⟨Good.refl _ _ _, List.Forall₂.nil⟩
  | cons p o ih =>
    obtain ⟨k, v⟩ := p
    intro h m h' m' o' hext hrefs heq
    simp only [mapFields] at heq
    cases h1 : f h m v with
    | none => simp [h1] at heq
    | some t =>
      obtain ⟨ha, ma, va⟩ := t
      simp only [h1] at heq
      cases h2 : mapFields f ha ma o with
      | none => simp [h2] at heq
      | some t =>
        obtain ⟨hb, mb, ob⟩ := t
        simp only [h2, Option.some.injEq, Prod.mk.injEq] at heq
        obtain ⟨rfl, rfl, rfl⟩ := heq
        obtain ⟨g1, c1⟩ := hf h m v ha ma va hext
          (fun s hs => hrefs k s (by rw [← hs]; exact List.mem_cons_self)) h1
        obtain ⟨g2, c2⟩ := ih ha ma hb mb ob (g1.ext hext) (fun k s hks => hrefs k s (List.mem_cons_of_mem _ hks)) h2
        exact ⟨g1.trans g2, List.Forall₂.cons ⟨rfl, c1.mono g2.memo_mono⟩ c2⟩

theorem deepcopy_good (h0 : Heap A) (hcl : Closed h0) : ∀ (n : ℕ) (h : Heap A) (m) (v) (h' m' v'), Ext h0 h →
    (∀ s, v = .ref s → s < h0.next) → deepcopy n h m v = some (h', m', v') →
    Good h0 h m h' m' ∧ Copied m' v v' := by
  intro n
  induction n with
  | zero => intro h m v h' m' v' _ _ heq; simp [deepcopy] at heq
  | succ n ih =>
    intro h m v h' m' v' hext hv heq
    cases v with
    | atom a =>
      simp only [deepcopy, Option.some.injEq, Prod.mk.injEq] at heq
      obtain ⟨rfl, rfl, rfl⟩ := heq
      exact ⟨Good.refl _ _ _, rfl⟩
    | ref r =>
      simp only [deepcopy] at heq
      cases hmr : m r with
      | some r' =>
        simp only [hmr, Option.some.injEq, Prod.mk.injEq] at heq
        obtain ⟨rfl, rfl, rfl⟩ := heq
        exact ⟨Good.refl _ _ _, hmr⟩
      | none =>
        simp only [hmr] at heq
        cases ho : h.obj r with
        | none => simp [ho] at heq
        | some o =>
          simp only [ho] at heq
          have hr : r < h0.next := hv r rfl
          have ho0 : h0.obj r = some o := by rw [← hext.2 r hr]; exact ho
          cases h2 : mapFields (deepcopy n) (h.alloc []) (fun s => if s = r then some h.next else m s) o with
          | none => simp [h2] at heq
          | some t =>
            obtain ⟨hb, mb, ob⟩ := t
            simp only [h2, Option.some.injEq, Prod.mk.injEq] at heq
            obtain ⟨rfl, rfl, rfl⟩ := heq
            have hext1 : Ext h0 (h.alloc []) := by
              refine ⟨by simp only [Heap.alloc]; exact hext.1.trans (Nat.le_succ _), ?_⟩
              intro s hs
              have : s ≠ h.next := by have := hext.1; omega
              simp only [Heap.alloc, if_neg this]; exact hext.2 s hs
            obtain ⟨g, c⟩ := mapFields_good h0 (deepcopy n) (fun h m v h' m' v' a b c => ih h m v h' m' v' a b c) o
              _ _ _ _ _ hext1 (fun k s hks => (hcl r o ho0).2 k s hks) h2
            have hmb : mb r = some h.next := g.memo_mono r h.next (by simp)
            have hnext : (h.alloc ([] : Obj A)).next = h.next + 1 := rfl
            have gn := g.next_le
            rw [hnext] at gn
            refine ⟨⟨?_, ?_, ?_, ?_, ?_, ?_, ?_⟩, hmb⟩
            · exact (Nat.le_succ _).trans gn
            · intro s hs
              have : s ≠ h.next := by omega
              rw [obj_put, if_neg this, g.frame s (by rw [hnext]; omega)]
              simp [Heap.alloc, this]
            · intro s s' hs
              refine g.memo_mono s s' ?_
              have : s ≠ r := by rintro rfl; simp [hmr] at hs
              simpa [this] using hs
            · intro s s' hs hns
              by_cases hsr : s = r
              · subst hsr
                rw [hmb, Option.some.injEq] at hs
                subst hs
                exact ⟨le_refl _, by simp only [Heap.put]; omega⟩
              · have := g.fresh s s' hs (by simpa [hsr] using hns)
                rw [hnext] at this
                exact ⟨by omega, this.2⟩
            · intro s s' hs hns
              by_cases hsr : s = r
              · subst hsr
                rw [hmb, Option.some.injEq] at hs
                subst hs
                exact ⟨o, ob, ho0, by simp [obj_put], c⟩
              · have hf := g.fresh s s' hs (by simpa [hsr] using hns)
                rw [hnext] at hf
                obtain ⟨o1, o1', a1, a2, a3⟩ := g.done s s' hs (by simpa [hsr] using hns)
                have : s' ≠ h.next := by omega
                exact ⟨o1, o1', a1, by rw [obj_put, if_neg this]; exact a2, a3⟩
            · intro s' hs1 hs2
              by_cases hs : s' = h.next
              · subst hs; exact ⟨r, hmb, hmr⟩
              · obtain ⟨s, e1, e2⟩ := g.image s' (by rw [hnext]; omega) hs2
                refine ⟨s, e1, ?_⟩
                by_cases hsr : s = r
                · simp [hsr] at e2
                · simpa [hsr] using e2
            · intro hfree s hs
              have hs : hb.next ≤ s := hs
              have : s ≠ h.next := by omega
              rw [obj_put, if_neg this]
              refine g.free ?_ s hs
              intro t ht
              rw [hnext] at ht
              have : t ≠ h.next := by omega
              simp only [Heap.alloc, if_neg this]
              exact hfree t (by omega)

/-- Everything reachable from `v` avoids the references below `b`. -/
def Beyond (h : Heap A) (b : ℕ) (v : HVal A) : Prop :=
  ∀ p w, readPath h v p = some w → ∀ r, w = .ref r → b ≤ r

theorem lookup_copied {m : ℕ → Option ℕ} {o o' : Obj A} (h : CopiedObj m o o') (k : String) :
    (List.lookup k o = none ∧ List.lookup k o' = none) ∨
      ∃ v v', List.lookup k o = some v ∧ List.lookup k o' = some v' ∧ Copied m v v' := by
  unfold CopiedObj at h
  induction h with
  | nil => exact Or.inl ⟨rfl, rfl⟩
  | cons hpq _ ih =>
    rename_i p q _ _ _
    obtain ⟨a, v⟩ := p
    obtain ⟨b, w⟩ := q
    obtain ⟨hab, hc⟩ := hpq
    simp only at hab hc
    subst hab
    by_cases hk : k = a
    · subst hk; exact Or.inr ⟨v, w, by simp, by simp, hc⟩
    · simp only [List.lookup, beq_eq_false_iff_ne.mpr hk]; exact ih

/-- C01, deepcopy: the original objects are unchanged; every path of attributes read from the copy ends in the copy of what the
original has there (the same datum, or a new cdict), and every cdict reachable from the copy is new: none of the
objects that existed before. -/
theorem C01_deepcopy (h : Heap A) (hcl : Closed h) (a : ℕ) (ha : a < h.next) (n : ℕ) (h' m' v')
    (heq : deepcopy n h (fun _ => none) (.ref a) = some (h', m', v')) :
    (∀ r < h.next, h'.obj r = h.obj r) ∧ Beyond h' h.next v' ∧
    (∀ p x, readPath h (.ref a) p = some (.atom x) ↔ readPath h' v' p = some (.atom x)) := by
  obtain ⟨g, c⟩ := deepcopy_good h hcl n h (fun _ => none) (.ref a) h' m' v' ⟨le_refl _, fun _ _ => rfl⟩
    (fun s hs => by cases hs; exact ha) heq
  have rel : ∀ (p : List String) (v w : HVal A), Copied m' v w →
      (readPath h v p = none ∧ readPath h' w p = none) ∨
      ∃ v2 w2, readPath h v p = some v2 ∧ readPath h' w p = some w2 ∧ Copied m' v2 w2 := by
    intro p
    induction p with
    | nil => intro v w hvw; exact Or.inr ⟨v, w, rfl, rfl, hvw⟩
    | cons k p ih =>
      intro v w hvw
      match v, w, hvw with
      | .atom _, .atom _, _ => exact Or.inl ⟨rfl, rfl⟩
      | .ref r, .ref r', hvw =>
        obtain ⟨o, o', h1, h2, h3⟩ := g.done r r' hvw rfl
        simp only [readPath, attr, h1, h2, Option.bind_some]
        rcases lookup_copied h3 k with ⟨e1, e2⟩ | ⟨v2, w2, e1, e2, e3⟩
        · simp only [e1, e2]; exact Or.inl ⟨trivial, trivial⟩
        · simp only [e1, e2]; exact ih v2 w2 e3
  refine ⟨g.frame, ?_, ?_⟩
  · intro p w hw r hwr
    rcases rel p _ _ c with ⟨-, e2⟩ | ⟨v2, w2, -, e2, e3⟩
    · rw [hw] at e2; simp at e2
    · rw [hw, Option.some.injEq] at e2
      subst e2
      subst hwr
      match v2, e3 with
      | .ref s, e3 => exact (g.fresh s r e3 rfl).1
  · intro p x
    rcases rel p _ _ c with ⟨e1, e2⟩ | ⟨v2, w2, e1, e2, e3⟩
    · simp [e1, e2]
    · rw [e1, e2]
      match v2, w2, e3 with
      | .atom y, .atom z, e3 => have : y = z := e3; simp [this]
      | .ref _, .ref _, _ => simp

theorem free_of_closed {h : Heap A} (hcl : Closed h) : FreeBeyond h := by
  intro r hr
  cases ho : h.obj r with
  | none => rfl
  | some o => have := (hcl r o ho).1; omega

/-- Deep copying always succeeds on a heap without dangling references, however the cdicts are nested or shared. -/
theorem deepcopy_total (h0 : Heap A) (hcl : Closed h0)
    (hdang : ∀ r < h0.next, ∃ o, h0.obj r = some o) : ∀ (n : ℕ) (h : Heap A) (m) (v), Ext h0 h →
    (∀ s, v = .ref s → s < h0.next) → ((List.range h0.next).filter (fun r => (m r).isNone)).length < n →
    ∃ t, deepcopy n h m v = some t := by
  intro n
  induction n with
  | zero => intro h m v _ _ hn; omega
  | succ n ih =>
    intro h m v hext hv hn
    cases v with
    | atom a => exact ⟨_, rfl⟩
    | ref r =>
      have hr := hv r rfl
      simp only [deepcopy]
      cases hmr : m r with
      | some r' => exact ⟨_, rfl⟩
      | none =>
        obtain ⟨o, ho0⟩ := hdang r hr
        have ho : h.obj r = some o := by rw [hext.2 r hr]; exact ho0
        simp only [ho]
        have hext1 : Ext h0 (h.alloc []) := by
          refine ⟨by simp only [Heap.alloc]; exact hext.1.trans (Nat.le_succ _), ?_⟩
          intro s hs
          have : s ≠ h.next := by have := hext.1; omega
          simp only [Heap.alloc, if_neg this]; exact hext.2 s hs
        have hcnt : ((List.range h0.next).filter
            (fun s => ((if s = r then some h.next else m s) : Option ℕ).isNone)).length < n := by
          refine lt_of_lt_of_le ?_ (Nat.lt_succ_iff.mp hn)
          have hsub : (List.range h0.next).filter
              (fun s => ((if s = r then some h.next else m s) : Option ℕ).isNone) =
              ((List.range h0.next).filter (fun r => (m r).isNone)).filter (fun s => s ≠ r) := by
            rw [List.filter_filter]
            refine List.filter_congr fun s _ => ?_
            by_cases hs : s = r <;> simp [hs]
          rw [hsub]
          refine List.length_filter_lt_length_iff_exists.mpr ⟨r, ?_, by simp⟩
          simp [hr, hmr]
        have fields : ∀ (o : Obj A) (h : Heap A) (m), Ext h0 h → (∀ k s, (k, HVal.ref s) ∈ o → s < h0.next) →
            ((List.range h0.next).filter (fun r => (m r).isNone)).length < n →
            ∃ t, mapFields (deepcopy n) h m o = some t := by
          intro o
          induction o with
          | nil => intro h m _ _ _; exact ⟨_, rfl⟩
          | cons p o iho =>
            obtain ⟨k, v⟩ := p
            intro h m he hrefs hc
            have hvref : ∀ s, v = .ref s → s < h0.next :=
              fun s hs => hrefs k s (by rw [← hs]; exact List.mem_cons_self)
            obtain ⟨⟨h1, m1, v1⟩, e1⟩ := ih h m v he hvref hc
            obtain ⟨g, -⟩ := deepcopy_good h0 hcl n h m v h1 m1 v1 he hvref e1
            have hle : ((List.range h0.next).filter (fun r => (m1 r).isNone)).length
                ≤ ((List.range h0.next).filter (fun r => (m r).isNone)).length := by
              refine List.Sublist.length_le (List.monotone_filter_right _ ?_)
              intro s hs
              cases hm : m s with
              | none => rfl
              | some s' => simp [g.memo_mono _ _ hm] at hs
            obtain ⟨⟨h2, m2, o2⟩, e2⟩ := iho h1 m1 (g.ext he) (fun k s hks => hrefs k s (List.mem_cons_of_mem _ hks))
              (by omega)
            exact ⟨(h2, m2, (k, v1) :: o2), by simp only [mapFields, e1, e2]⟩
        obtain ⟨⟨h2, m2, o2⟩, e2⟩ := fields o _ _ hext1 (fun k s hks => (hcl r o ho0).2 k s hks) hcnt
        exact ⟨(h2.put h.next o2, m2, .ref h.next), by simp only [e2]⟩

/-- C01: `deepcopy` always terminates (with depth bounded by the number of objects). -/
theorem C01_deepcopy_total (h : Heap A) (hcl : Closed h) (hdang : ∀ r < h.next, ∃ o, h.obj r = some o)
    (a : ℕ) (ha : a < h.next) : ∃ t, deepcopy (h.next + 1) h (fun _ => none) (.ref a) = some t := by
  refine deepcopy_total h hcl hdang _ h _ _ ⟨le_refl _, fun _ _ => rfl⟩ (fun s hs => by cases hs; exact ha) ?_
  have := List.length_filter_le (fun r => ((fun _ => none : ℕ → Option ℕ) r).isNone) (List.range h.next)
  rw [List.length_range] at this
  exact Nat.lt_succ_of_le this

/-- Things done through handles, including reading nested cdicts out of them. -/
inductive DCmd (A : Type) where
  | assign (i : ℕ) (k : String) (a : A)
  | assignHandle (i : ℕ) (k : String) (j : ℕ)
  | delete (i : ℕ) (k : String)
  | copy (i : ℕ)
  | get (i : ℕ) (k : String)

/-- One such command. -/
def dstep (c : Heap A × List ℕ) : DCmd A → Heap A × List ℕ
  | .assign i k a => step c (.assign i k (.atom a))
  | .assignHandle i k j => match c.2[j]? with
    | none => c
    | some r => step c (.assign i k (.ref r))
  | .delete i k => step c (.delete i k)
  | .copy i => step c (.copy i)
  | .get i k => match c.2[i]? with
    | none => c
    | some r => match attr c.1 r k with
      | some (.ref s) => (c.1, c.2 ++ [s])
      | _ => c

/-- Handles, and everything stored in objects from `b` on, are references from `b` on. -/
def Sep (b : ℕ) (c : Heap A × List ℕ) : Prop :=
  b ≤ c.1.next ∧ (∀ r ∈ c.2, b ≤ r) ∧ ∀ r o, b ≤ r → c.1.obj r = some o → ∀ p ∈ o, ∀ s, p.2 = HVal.ref s → b ≤ s

theorem mem_set {o : Obj A} {k : String} {v : HVal A} {p : String × HVal A} (h : p ∈ Obj.set o k v) :
    p ∈ o ∨ p.2 = v := by
  induction o with
  | nil => simp only [Obj.set, List.mem_singleton] at h; right; rw [h]
  | cons q o ih =>
    obtain ⟨a, w⟩ := q
    simp only [Obj.set] at h
    split at h
    · rcases List.mem_cons.mp h with rfl | h
      · exact Or.inr rfl
      · exact Or.inl (List.mem_cons_of_mem _ h)
    · rcases List.mem_cons.mp h with rfl | h
      · exact Or.inl List.mem_cons_self
      · rcases ih h with h | h
        · exact Or.inl (List.mem_cons_of_mem _ h)
        · exact Or.inr h

theorem sep_assign {b : ℕ} {h : Heap A} {hs : List ℕ} (hsep : Sep b (h, hs)) {r : ℕ} (hr : b ≤ r) (k : String)
    (v : HVal A) (hv : ∀ s, v = .ref s → b ≤ s) :
    Sep b (assign h r k v, hs) ∧ ∀ x < b, (assign h r k v).obj x = h.obj x := by
  obtain ⟨h1, h2, h3⟩ := hsep
  refine ⟨⟨by rw [next_assign]; exact h1, h2, ?_⟩, fun x hx => obj_assign_ne _ _ _ (by omega)⟩
  intro r' o hr' ho p hp s hps
  by_cases hrr : r' = r
  · subst hrr
    simp only [assign] at ho
    cases hobj : h.obj r' with
    | none => simp [hobj] at ho
    | some o0 =>
      simp only [hobj, obj_put, if_true, Option.some.injEq] at ho
      subst ho
      rcases mem_set hp with hp | hp
      · exact h3 r' o0 hr' hobj p hp s hps
      · exact hv s (hp ▸ hps)
  · rw [obj_assign_ne _ _ _ hrr] at ho
    exact h3 r' o hr' ho p hp s hps

theorem dstep_sep {b : ℕ} {c : Heap A × List ℕ} (hsep : Sep b c) (cmd : DCmd A) :
    Sep b (dstep c cmd) ∧ ∀ x < b, (dstep c cmd).1.obj x = c.1.obj x := by
  obtain ⟨h, hs⟩ := c
  have hmem : ∀ {i r : ℕ}, hs[i]? = some r → b ≤ r := fun hi => hsep.2.1 _ (List.mem_of_getElem? hi)
  cases cmd with
  | assign i k a =>
    simp only [dstep, step]
    cases hi : hs[i]? with
    | none => exact ⟨hsep, fun _ _ => rfl⟩
    | some r => exact sep_assign hsep (hmem hi) k _ (fun s hs => by cases hs)
  | assignHandle i k j =>
    simp only [dstep, step]
    cases hj : hs[j]? with
    | none => exact ⟨hsep, fun _ _ => rfl⟩
    | some r' =>
      simp only
      cases hi : hs[i]? with
      | none => exact ⟨hsep, fun _ _ => rfl⟩
      | some r => exact sep_assign hsep (hmem hi) k _ (fun s hs => by cases hs; exact hmem hj)
  | delete i k =>
    simp only [dstep, step]
    cases hi : hs[i]? with
    | none => exact ⟨hsep, fun _ _ => rfl⟩
    | some r =>
      have hr := hmem hi
      obtain ⟨h1, h2, h3⟩ := hsep
      refine ⟨⟨by rw [next_delete]; exact h1, h2, ?_⟩, fun x hx => obj_delete_ne _ _ (by omega)⟩
      intro r' o hr' ho p hp s hps
      by_cases hrr : r' = r
      · subst hrr
        simp only [delete] at ho
        cases hobj : h.obj r' with
        | none => simp [hobj] at ho
        | some o0 =>
          simp only [hobj, obj_put, if_true, Option.some.injEq] at ho
          subst ho
          exact h3 r' o0 hr' hobj p (List.mem_of_mem_filter hp) s hps
      · simp only [obj_delete_ne _ _ hrr] at ho
        exact h3 r' o hr' ho p hp s hps
  | copy i =>
    simp only [dstep, step]
    cases hi : hs[i]? with
    | none => exact ⟨hsep, fun _ _ => rfl⟩
    | some r =>
      have hr := hmem hi
      obtain ⟨h1, h2, h3⟩ := hsep
      simp only at h1
      refine ⟨⟨by simp only [copy, Heap.alloc]; omega, ?_, ?_⟩, ?_⟩
      · intro r' hr'
        rcases List.mem_append.mp hr' with hr' | hr'
        · exact h2 r' hr'
        · rw [List.mem_singleton.mp hr']; exact h1
      · intro r' o hr' ho p hp s hps
        simp only [copy, Heap.alloc] at ho
        by_cases hrr : r' = h.next
        · simp only [hrr, if_true, Option.some.injEq] at ho
          cases hobj : h.obj r with
          | none => rw [hobj] at ho; subst ho; simp at hp
          | some o0 => rw [hobj] at ho; subst ho; exact h3 r o0 hr hobj p hp s hps
        · simp only [if_neg hrr] at ho
          exact h3 r' o hr' ho p hp s hps
      · intro x hx
        have : x ≠ h.next := by omega
        simp [copy, Heap.alloc, this]
  | get i k =>
    simp only [dstep]
    cases hi : hs[i]? with
    | none => exact ⟨hsep, fun _ _ => rfl⟩
    | some r =>
      simp only
      cases hat : attr h r k with
      | none => exact ⟨hsep, fun _ _ => rfl⟩
      | some v =>
        cases v with
        | atom a => exact ⟨hsep, fun _ _ => rfl⟩
        | ref s =>
          refine ⟨⟨hsep.1, ?_, hsep.2.2⟩, fun _ _ => rfl⟩
          intro r' hr'
          rcases List.mem_append.mp hr' with hr' | hr'
          · exact hsep.2.1 r' hr'
          · rw [List.mem_singleton.mp hr']
            unfold attr at hat
            cases hobj : h.obj r with
            | none => simp [hobj] at hat
            | some o =>
              rw [hobj, Option.bind_some] at hat
              have : ∃ k', (k', HVal.ref s) ∈ o := by
                clear hobj hi hr' hsep hmem
                induction o with
                | nil => simp at hat
                | cons q o ih =>
                  obtain ⟨a, w⟩ := q
                  simp only [List.lookup] at hat
                  split at hat
                  · simp only [Option.some.injEq] at hat; subst hat; exact ⟨a, List.mem_cons_self⟩
                  · obtain ⟨k', hk'⟩ := ih hat; exact ⟨k', List.mem_cons_of_mem _ hk'⟩
              obtain ⟨k', hk'⟩ := this
              exact hsep.2.2 r o (hmem hi) hobj _ hk' s rfl

/-- C01, deepcopy: after `b = a.deepcopy()`, whatever is done through `b`, the cdicts nested in it (to any depth), and copies of
these, every object that existed before is unchanged: in particular nothing read through `a`, at any depth, changes. -/
theorem C01_deepcopy_isolated (h : Heap A) (hcl : Closed h) (a : ℕ) (ha : a < h.next) (n : ℕ) (h' m') (b : ℕ)
    (heq : deepcopy n h (fun _ => none) (.ref a) = some (h', m', .ref b)) (p : List (DCmd A)) :
    ∀ r < h.next, (p.foldl dstep (h', [b])).1.obj r = h.obj r := by
  obtain ⟨g, c⟩ := deepcopy_good h hcl n h (fun _ => none) (.ref a) h' m' (.ref b) ⟨le_refl _, fun _ _ => rfl⟩
    (fun s hs => by cases hs; exact ha) heq
  have hsep : Sep h.next (h', [b]) := by
    refine ⟨g.next_le, ?_, ?_⟩
    · intro r hr; rw [List.mem_singleton.mp hr]; exact (g.fresh a b c rfl).1
    · intro r' o' hr' ho' q hq s hqs
      by_cases hlt : r' < h'.next
      · obtain ⟨r, e1, e2⟩ := g.image r' hr' hlt
        obtain ⟨o1, o2, a1, a2, a3⟩ := g.done r r' e1 e2
        rw [show h'.obj r' = some o' from ho', Option.some.injEq] at a2
        subst a2
        have : ∃ p ∈ o1, Copied m' p.2 q.2 := by
          unfold CopiedObj at a3
          clear a1 ho'
          induction a3 with
          | nil => simp at hq
          | cons hpq _ ih =>
            rcases List.mem_cons.mp hq with rfl | hq
            · exact ⟨_, List.mem_cons_self, hpq.2⟩
            · obtain ⟨p, hp, hc⟩ := ih hq; exact ⟨p, List.mem_cons_of_mem _ hp, hc⟩
        obtain ⟨p, -, hc⟩ := this
        rw [hqs] at hc
        match hp2 : p.2, hc with
        | .ref t, hc => exact (g.fresh t s hc rfl).1
      · exact absurd ho' (by rw [g.free (free_of_closed hcl) r' (by omega)]; simp)
  have : ∀ (p : List (DCmd A)) (c : Heap A × List ℕ), Sep h.next c → (∀ r < h.next, c.1.obj r = h.obj r) →
      ∀ r < h.next, (p.foldl dstep c).1.obj r = h.obj r := by
    intro p
    induction p with
    | nil => intro c _ hc; exact hc
    | cons cmd p ih =>
      intro c hs hc
      obtain ⟨s1, s2⟩ := dstep_sep hs cmd
      exact ih _ s1 (fun r hr => (s2 r hr).trans (hc r hr))
  exact this p _ hsep g.frame

/-- A heap: object 0 has an array `x` and a nested cdict (object 1) shared with object 2; object 1 refers back to 0. -/
def sampleHeap : Heap ℕ :=
  { obj := fun r => match r with
      | 0 => some [("x", .atom 5), ("inner", .ref 1)]
      | 1 => some [("y", .atom 6), ("back", .ref 0)]
      | 2 => some [("inner", .ref 1)]
      | _ => none
    next := 3 }

/-- Non-vacuity: the heap (which has sharing and a cycle) meets the hypotheses. -/
example : Closed sampleHeap ∧ (∀ r < sampleHeap.next, ∃ o, sampleHeap.obj r = some o) := by
  constructor
  · intro r o h
    match r, h with
    | 0, h => simp [sampleHeap] at h ⊢; subst h; simp
    | 1, h => simp [sampleHeap] at h ⊢; subst h; simp
    | 2, h => simp [sampleHeap] at h ⊢; subst h; simp
  · intro r hr
    match r, hr with
    | 0, _ => exact ⟨_, rfl⟩
    | 1, _ => exact ⟨_, rfl⟩
    | 2, _ => exact ⟨_, rfl⟩
    | n + 3, hr => simp [sampleHeap] at hr; omega

/-- The deep copy of object 0 is object 3, with its own nested object 4. -/
example : (deepcopy 4 sampleHeap (fun _ => none) (.ref 0)).map (fun t => (t.2.2, t.1.next))
    = some (.ref 3, 5) := rfl

end Mocat.Props
