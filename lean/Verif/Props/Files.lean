import Verif.Model.Files
import Mathlib.Data.List.TakeDrop
import Mathlib.Data.List.TakeWhile
/-!
# C06 - C08: saving and loading
-/
namespace Mocat.Props
open Mocat.Files

variable {B C : Type}

/-! ## Names -/

theorem splitSuffix_append {stem : Name} (h : stem ≠ []) : splitSuffix (stem ++ cdictSuffix) = (stem, cdictSuffix) := by
  have h2 : stem.reverse ≠ [] := by simpa using h
  unfold splitSuffix
  rw [List.reverse_append]
  simp [cdictSuffix, List.dropWhile, List.takeWhile, h]

theorem splitSuffix_eq (n : Name) : (splitSuffix n).1 ++ (splitSuffix n).2 = n := by
  unfold splitSuffix
  split
  · simp
  · rename_i a s heq
    dsimp only
    split
    · simp
    · have h := List.takeWhile_append_dropWhile (p := fun c => decide (c ≠ '.')) (l := n.reverse)
      rw [heq] at h
      have ha : a = '.' := by
        have := List.head?_dropWhile_not (fun c => decide (c ≠ '.')) n.reverse
        rw [heq] at this
        simpa using this
      subst ha
      have h' := congrArg List.reverse h
      simp only [List.reverse_append, List.reverse_reverse, List.reverse_cons] at h'
      simpa using h'

theorem stem_ne_nil {n : Name} (h : n ≠ []) : (splitSuffix n).1 ≠ [] := by
  unfold splitSuffix
  split
  · exact h
  · dsimp only
    split
    · exact h
    · rename_i hh
      simp only [not_or] at hh
      simpa using hh.1

/-- The path written to always ends in `.cdict`. -/
theorem target_suffix {p q : Path} (h : target p = .ok q) : (splitSuffix q.name).2 = cdictSuffix := by
  unfold target at h
  split at h
  · rename_i hs; cases h; exact hs
  · split at h
    · cases h
    · rename_i hn
      cases h
      simp only
      rw [splitSuffix_append (stem_ne_nil hn)]

/-! ## Traces -/

/-- A path other than the one written to. -/
def Untouched (fs fs' : FS B) (p : Path) : Prop := ∀ q, q ≠ p → fs'.file q = fs.file q

theorem mkdir_file {fs fs1 : FS B} {d : List Name} (h : mkdir fs d = .ok fs1) : fs1.file = fs.file := by
  unfold mkdir at h
  split at h
  · cases h
  · cases h; rfl

theorem mkdir_dir {fs fs1 : FS B} {d : List Name} (h : mkdir fs d = .ok fs1) (l : List Name) :
    fs1.dir l = (fs.dir l || decide (l <+: d)) := by
  unfold mkdir at h
  split at h
  · cases h
  · cases h; rfl

theorem isDir_mkdir {fs fs1 : FS B} {p : Path} (h : mkdir fs p.parent = .ok fs1) : fs1.isDir p = fs.isDir p := by
  unfold FS.isDir
  rw [mkdir_dir h]
  have : ¬ (p.parent ++ [p.name] <+: p.parent) := by
    intro hp; have := hp.length_le; simp at this; omega
  simp [this]

theorem setFile_file (fs : FS B) (p q : Path) (o : Option (List B)) :
    (fs.setFile p o).file q = if q = p then o else fs.file q := rfl

/-- C06: saving without overwrite on a path whose file exists raises RuntimeError (or the OSError of a parent that is a
regular file), and in every state the process can be killed in, and after it, every file is as before. -/
theorem C06_no_overwrite (dump : C → List B × Bool) (fs : FS B) (c : C) (path p : Path) (hp : target path = .ok p)
    (hex : (fs.file p).isSome) :
    ((save dump fs c path false).2 = .error .runtimeError ∨ mkdir fs p.parent = .error .osError ∧
      (save dump fs c path false).2 = .error .osError) ∧
    ∀ s ∈ (save dump fs c path false).1, ∀ q, s.file q = fs.file q := by
  unfold save
  simp only [hp]
  cases hm : mkdir fs p.parent with
  | error e =>
    have : e = .osError := by
      unfold mkdir at hm; split at hm
      · cases hm; rfl
      · cases hm
    subst this
    simp
  | ok fs1 =>
    have hf := mkdir_file hm
    have he : fs1.exists' p = true := by simp [FS.exists', hf, hex]
    simp only [he, if_true, Bool.false_eq_true, if_false]
    refine ⟨by simp, ?_⟩
    intro s hs q
    simp only [List.mem_cons, List.not_mem_nil, or_false] at hs
    rcases hs with rfl | rfl
    · rfl
    · rw [hf]

/-- C06: even when the file does not exist, saving without overwrite changes no existing file, at any crash point. -/
theorem C06_existing_files (dump : C → List B × Bool) (fs : FS B) (c : C) (path : Path) (q : Path) (b : List B)
    (hq : fs.file q = some b) : ∀ s ∈ (save dump fs c path false).1, s.file q = some b := by
  intro s hs
  unfold save at hs
  cases hp : target path with
  | error e => simp only [hp, List.mem_singleton] at hs; subst hs; exact hq
  | ok p =>
    simp only [hp] at hs
    cases hm : mkdir fs p.parent with
    | error e => simp only [hm, List.mem_singleton] at hs; subst hs; exact hq
    | ok fs1 =>
      have hf := mkdir_file hm
      simp only [hm] at hs
      cases he : fs1.exists' p with
      | true =>
        simp only [he, if_true, Bool.false_eq_true, if_false, List.mem_cons, List.not_mem_nil, or_false] at hs
        rcases hs with rfl | rfl
        · exact hq
        · rw [hf]; exact hq
      | false =>
        simp only [he, Bool.false_eq_true, if_false] at hs
        have hne : q ≠ p := by
          rintro rfl
          simp [FS.exists', hf, hq] at he
        rcases List.mem_append.mp hs with hs | hs
        · simp only [List.mem_cons, List.not_mem_nil, or_false] at hs
          rcases hs with rfl | rfl
          · exact hq
          · rw [hf]; exact hq
        · obtain ⟨pre, -, rfl⟩ := List.mem_map.mp hs
          rw [setFile_file, if_neg hne, hf]; exact hq

/-- Every state of any save leaves all files but the target's alone. -/
theorem save_untouched (dump : C → List B × Bool) (fs : FS B) (c : C) (path p : Path) (ov : Bool)
    (hp : target path = .ok p) : ∀ s ∈ (save dump fs c path ov).1, Untouched fs s p := by
  intro s hs q hne
  unfold save at hs
  simp only [hp] at hs
  cases hm : mkdir fs p.parent with
  | error e => simp only [hm, List.mem_singleton] at hs; subst hs; rfl
  | ok fs1 =>
    have hf := mkdir_file hm
    simp only [hm] at hs
    have hw : ∀ fs2 : FS B, (∀ q, q ≠ p → fs2.file q = fs.file q) → s ∈ writeStates fs2 p (dump c).1 →
        s.file q = fs.file q := by
      intro fs2 h2 hs
      obtain ⟨pre, -, rfl⟩ := List.mem_map.mp hs
      rw [setFile_file, if_neg hne]; exact h2 q hne
    have h1 : fs1.file q = fs.file q := by rw [hf]
    have h2 : (fs1.setFile p none).file q = fs.file q := by rw [setFile_file, if_neg hne]; exact h1
    split at hs
    · split at hs
      · split at hs
        · simp only [List.mem_cons, List.not_mem_nil, or_false] at hs
          rcases hs with rfl | rfl
          · rfl
          · exact h1
        · rcases List.mem_append.mp hs with hs | hs
          · simp only [List.mem_cons, List.not_mem_nil, or_false] at hs
            rcases hs with rfl | rfl | rfl
            · rfl
            · exact h1
            · exact h2
          · exact hw _ (fun q hq => by rw [setFile_file, if_neg hq, hf]) hs
      · simp only [List.mem_cons, List.not_mem_nil, or_false] at hs
        rcases hs with rfl | rfl
        · rfl
        · exact h1
    · rcases List.mem_append.mp hs with hs | hs
      · simp only [List.mem_cons, List.not_mem_nil, or_false] at hs
        rcases hs with rfl | rfl
        · rfl
        · exact h1
      · exact hw _ (fun q _ => by rw [hf]) hs

theorem after_mem {fs : FS B} {r : List (FS B) × Except Err Unit} (h : r.1 ≠ []) : after fs r ∈ r.1 := by
  unfold after
  rw [List.getLast?_eq_some_getLast h]
  exact List.getLast_mem h

theorem save_ne_nil (dump : C → List B × Bool) (fs : FS B) (c : C) (path : Path) (ov : Bool) :
    (save dump fs c path ov).1 ≠ [] := by
  unfold save
  split
  · simp
  · split
    · simp
    · dsimp only
      split
      · split
        · split <;> simp
        · simp
      · simp

theorem getLast_inits (l : List B) : l.inits.getLast? = some l := by
  induction l with
  | nil => rfl
  | cons a l ih =>
    rw [List.inits_cons, List.getLast?_cons]
    rw [List.getLast?_map, ih]; rfl

theorem after_write (fs fs2 : FS B) (l : List (FS B)) (p : Path) (bytes : List B) (out : Except Err Unit) :
    (after fs (l ++ writeStates fs2 p bytes, out)).file p = some bytes := by
  have hne : writeStates fs2 p bytes ≠ [] := by
    unfold writeStates; cases bytes <;> simp
  have : (writeStates fs2 p bytes).getLast? = some (fs2.setFile p (some bytes)) := by
    unfold writeStates
    rw [List.getLast?_map, getLast_inits]; rfl
  unfold after
  rw [List.getLast?_append_of_ne_nil _ hne, this]
  simp [setFile_file]

/-- A successful save leaves exactly the pickled bytes at the target. -/
theorem save_ok {dump : C → List B × Bool} {fs : FS B} {c : C} {path : Path} {ov : Bool}
    (h : (save dump fs c path ov).2 = .ok ()) :
    ∃ p, target path = .ok p ∧ (after fs (save dump fs c path ov)).file p = some (dump c).1 ∧ (dump c).2 = true := by
  unfold save at h ⊢
  cases hp : target path with
  | error e => simp [hp] at h
  | ok p =>
    refine ⟨p, rfl, ?_⟩
    simp only [hp] at h ⊢
    cases hm : mkdir fs p.parent with
    | error e => simp [hm] at h
    | ok fs1 =>
      simp only [hm] at h ⊢
      have hout : ∀ {x : Except Err Unit}, x = (if (dump c).2 then .ok () else .error .pickleError) → x = .ok () →
          (dump c).2 = true := by
        intro x hx hx'
        rw [hx] at hx'
        split at hx'
        · assumption
        · cases hx'
      split at h
      · rename_i he
        rw [if_pos he]
        split at h
        · rename_i hov
          rw [if_pos hov]
          split at h
          · cases h
          · rename_i hd
            rw [if_neg hd]
            exact ⟨after_write _ _ _ _ _ _, hout rfl h⟩
        · cases h
      · rename_i he
        rw [if_neg he]
        exact ⟨after_write _ _ _ _ _ _, hout rfl h⟩

/-- The file system after a sequence of save calls, successful or not. -/
def afterSaves (dump : C → List B × Bool) (fs : FS B) (l : List (C × Path × Bool)) : FS B :=
  l.foldl (fun fs a => after fs (save dump fs a.1 a.2.1 a.2.2)) fs

/-- C07: after a successful save of `c`, and any number of later saves (of anything, successful or not) whose own
target is another file, loading the path written to returns `c`. `undump` is assumed to invert pickling. -/
theorem C07_load_save (dump : C → List B × Bool) (undump : List B → Option C)
    (hinv : ∀ c, (dump c).2 = true → undump (dump c).1 = some c) (fs : FS B) (c : C) (path : Path) (ov : Bool)
    (h : (save dump fs c path ov).2 = .ok ()) (later : List (C × Path × Bool))
    (hl : ∀ a ∈ later, target a.2.1 ≠ target path) :
    ∃ p, target path = .ok p ∧ load undump (afterSaves dump (after fs (save dump fs c path ov)) later) p = .ok c := by
  obtain ⟨p, hp, hf, hd⟩ := save_ok h
  refine ⟨p, hp, ?_⟩
  have key : ∀ (later : List (C × Path × Bool)) (fs : FS B), (∀ a ∈ later, target a.2.1 ≠ target path) →
      fs.file p = some (dump c).1 → (afterSaves dump fs later).file p = some (dump c).1 := by
    intro later
    induction later with
    | nil => intro fs _ hf; exact hf
    | cons a later ih =>
      intro fs hl hf
      refine ih _ (fun b hb => hl b (List.mem_cons_of_mem _ hb)) ?_
      have hne := hl a List.mem_cons_self
      have hmem := after_mem (fs := fs) (save_ne_nil dump fs a.1 a.2.1 a.2.2)
      cases hq : target a.2.1 with
      | error e =>
        have : save dump fs a.1 a.2.1 a.2.2 = ([fs], .error e) := by unfold save; rw [hq]
        simp only [this]; exact hf
      | ok q =>
        have hpq : p ≠ q := by rintro rfl; exact hne (hq.trans hp.symm)
        exact (save_untouched dump fs a.1 a.2.1 q a.2.2 hq _ hmem p hpq).trans hf
  have hfinal := key later _ hl hf
  simp only [load, hfinal, target_suffix hp, ne_eq, not_true_eq_false, if_false, hinv c hd]

/-- A file system in which every file lies in a directory that exists, with all its ancestors, and no name is both a file and a directory. -/
def Sound (fs : FS B) : Prop :=
  (∀ p, (fs.file p).isSome → ∀ l, l <+: p.parent → fs.dir l = true) ∧ ∀ p, (fs.file p).isSome → fs.isDir p = false

/-- A regular file stands where the path needs a directory. -/
def Blocked (fs : FS B) (p : Path) : Prop := ∃ q : Path, (fs.file q).isSome ∧ q.parent ++ [q.name] <+: p.parent

theorem mkdir_ok_iff (fs : FS B) (d : List Name) : (∃ fs1, mkdir fs d = .ok fs1) ↔ ¬ ∃ q : Path, (fs.file q).isSome ∧ q.parent ++ [q.name] <+: d := by
  have key : (d.inits.any (fun l => ((dirPath l).bind fs.file).isSome)) = true ↔ ∃ q : Path, (fs.file q).isSome ∧ q.parent ++ [q.name] <+: d := by
    rw [List.any_eq_true]
    constructor
    · rintro ⟨l, hl, h⟩
      unfold dirPath at h
      split at h
      · simp at h
      · rename_i n r hr
        refine ⟨⟨r.reverse, n⟩, by simpa using h, ?_⟩
        have : l = r.reverse ++ [n] := by
          have := congrArg List.reverse hr
          simpa using this
        rw [← this]
        exact (List.mem_inits _ _).mp hl
    · rintro ⟨q, h1, h2⟩
      refine ⟨_, (List.mem_inits _ _).mpr h2, ?_⟩
      have : dirPath (q.parent ++ [q.name]) = some q := by simp [dirPath]
      rw [this]; simpa using h1
  unfold mkdir
  rw [← key]
  split
  · rename_i h; simp [h]
  · rename_i h; exact ⟨fun _ => h, fun _ => ⟨_, rfl⟩⟩

/-- C07: a save succeeds exactly when no regular file stands where a directory is needed, the target is not a directory, the target does not exist or `overwrite` is set, and pickling succeeds.
In particular missing directories are no obstacle. -/
theorem C07_save_succeeds (dump : C → List B × Bool) (fs : FS B) (c : C) (path p : Path) (ov : Bool) (hp : target path = .ok p) :
    (save dump fs c path ov).2 = .ok () ↔
      ¬ Blocked fs p ∧ fs.isDir p = false ∧ (fs.file p = none ∨ ov = true) ∧ (dump c).2 = true := by
  have hb := mkdir_ok_iff fs p.parent
  unfold save
  simp only [hp]
  cases hm : mkdir fs p.parent with
  | error e =>
    rw [hm] at hb
    have : Blocked fs p := by by_contra h; obtain ⟨_, h⟩ := hb.mpr h; cases h
    simp [this]
  | ok fs1 =>
    have hn : ¬ Blocked fs p := hb.mp ⟨fs1, hm⟩
    have hf := mkdir_file hm
    have hd := isDir_mkdir hm
    simp only [FS.exists', hf, hd]
    have hout : ((if (dump c).2 then Except.ok () else Except.error Err.pickleError : Except Err Unit) = .ok ()) ↔ (dump c).2 = true := by
      split <;> simp_all
    cases h1 : fs.isDir p <;> cases h2 : fs.file p <;> cases ov <;> simp [hn, hout]

/-- C07: whatever is saved and wherever it stops, every file lies in existing directories and no name is both a file and a directory, if that was so before. -/
theorem C07_sound (dump : C → List B × Bool) (fs : FS B) (hs : Sound fs) (c : C) (path : Path) (ov : Bool) : ∀ s ∈ (save dump fs c path ov).1, Sound s := by
  intro s hmem
  unfold save at hmem
  cases hp : target path with
  | error e => simp only [hp, List.mem_singleton] at hmem; subst hmem; exact hs
  | ok p =>
    simp only [hp] at hmem
    cases hm : mkdir fs p.parent with
    | error e => simp only [hm, List.mem_singleton] at hmem; subst hmem; exact hs
    | ok fs1 =>
      simp only [hm] at hmem
      have hf := mkdir_file hm
      have hblock := (mkdir_ok_iff fs p.parent).mp ⟨fs1, hm⟩
      have h1 : Sound fs1 := by
        refine ⟨fun q hq l hl => ?_, fun q hq => ?_⟩
        · rw [hf] at hq; rw [mkdir_dir hm, hs.1 q hq l hl]; rfl
        · rw [hf] at hq
          unfold FS.isDir
          rw [mkdir_dir hm]
          have := hs.2 q hq
          unfold FS.isDir at this
          rw [this, Bool.false_or, decide_eq_false_iff_not]
          exact fun h => hblock ⟨q, hq, h⟩
      have hpar : ∀ l, l <+: p.parent → fs1.dir l = true := fun l hl => by rw [mkdir_dir hm]; simp [hl]
      have hset : ∀ (g : FS B) (o : Option (List B)), Sound g → (∀ l, l <+: p.parent → g.dir l = true) → g.isDir p = false →
          Sound (g.setFile p o) ∧ (∀ l, l <+: p.parent → (g.setFile p o).dir l = true) ∧ (g.setFile p o).isDir p = false := by
        intro g o hg hd hi
        refine ⟨⟨fun q hq l hl => ?_, fun q hq => ?_⟩, hd, hi⟩
        · rw [setFile_file] at hq
          split at hq
          · rename_i e; rw [e] at hl; exact hd l hl
          · exact hg.1 q hq l hl
        · rw [setFile_file] at hq
          split at hq
          · rename_i e; rw [e]; exact hi
          · exact hg.2 q hq
      have hw : ∀ g : FS B, Sound g → (∀ l, l <+: p.parent → g.dir l = true) → g.isDir p = false → s ∈ writeStates g p (dump c).1 → Sound s := by
        intro g hg hd hi hmem
        obtain ⟨pre, -, rfl⟩ := List.mem_map.mp hmem
        exact (hset g _ hg hd hi).1
      split at hmem
      · split at hmem
        · split at hmem
          · simp only [List.mem_cons, List.not_mem_nil, or_false] at hmem
            rcases hmem with rfl | rfl
            · exact hs
            · exact h1
          · rename_i hnd
            have h2 := hset fs1 none h1 hpar (by simpa using hnd)
            rcases List.mem_append.mp hmem with hmem | hmem
            · simp only [List.mem_cons, List.not_mem_nil, or_false] at hmem
              rcases hmem with rfl | rfl | rfl
              · exact hs
              · exact h1
              · exact h2.1
            · exact hw _ h2.1 h2.2.1 h2.2.2 hmem
        · simp only [List.mem_cons, List.not_mem_nil, or_false] at hmem
          rcases hmem with rfl | rfl
          · exact hs
          · exact h1
      · rename_i he
        rcases List.mem_append.mp hmem with hmem | hmem
        · simp only [List.mem_cons, List.not_mem_nil, or_false] at hmem
          rcases hmem with rfl | rfl
          · exact hs
          · exact h1
        · exact hw _ h1 hpar (by simp [FS.exists'] at he; exact he.2) hmem

/-- C07: loading a path that is not a file raises ValueError. -/
theorem C07_load_missing (undump : List B → Option C) (fs : FS B) (path : Path) (h : fs.file path = none) :
    load undump fs path = .error .valueError := by
  simp [load, h]

/-- C07: loading a path without the `.cdict` suffix raises ValueError. -/
theorem C07_load_suffix (undump : List B → Option C) (fs : FS B) (path : Path)
    (h : (splitSuffix path.name).2 ≠ cdictSuffix) : load undump fs path = .error .valueError := by
  unfold load
  cases fs.file path with
  | none => rfl
  | some b => simp [h]

/-! ## C08 -/

/-- C08 fails: whenever an existing file is overwritten, there is a crash point at which neither the old nor the new
contents exist: the file is gone. -/
theorem C08_crash_loses_file (dump : C → List B × Bool) (fs : FS B) (c : C) (path p : Path) (hp : target path = .ok p)
    (old : List B) (hold : fs.file p = some old) (hdir : fs.isDir p = false)
    (hmk : ∃ fs1, mkdir fs p.parent = .ok fs1) :
    ∃ s ∈ (save dump fs c path true).1, s.file p = none := by
  obtain ⟨fs1, hm⟩ := hmk
  have hf := mkdir_file hm
  refine ⟨fs1.setFile p none, ?_, by simp [setFile_file]⟩
  have he : fs1.exists' p = true := by simp [FS.exists', hf, hold]
  have hd : fs1.isDir p = false := by rw [isDir_mkdir hm]; exact hdir
  simp [save, hp, hm, he, hd]

/-- C08, what does hold: at every crash point of an overwriting save the target holds the old contents, or nothing, or
an initial part of the new contents; every other file is untouched; and a save that returns normally leaves
the new contents. Missing with respect to the claim: atomicity. -/
theorem C08_overwrite_partial (dump : C → List B × Bool) (fs : FS B) (c : C) (path p : Path) (hp : target path = .ok p)
    (ov : Bool) :
    (∀ s ∈ (save dump fs c path ov).1,
      (s.file p = fs.file p ∨ s.file p = none ∨ ∃ pre, pre <+: (dump c).1 ∧ s.file p = some pre) ∧ Untouched fs s p) ∧
    ((save dump fs c path ov).2 = .ok () → (after fs (save dump fs c path ov)).file p = some (dump c).1) := by
  constructor
  · intro s hs
    refine ⟨?_, save_untouched dump fs c path p ov hp s hs⟩
    unfold save at hs
    simp only [hp] at hs
    cases hm : mkdir fs p.parent with
    | error e => simp only [hm, List.mem_singleton] at hs; subst hs; exact Or.inl rfl
    | ok fs1 =>
      have hf := mkdir_file hm
      simp only [hm] at hs
      have h1 : fs1.file p = fs.file p := by rw [hf]
      have hw : ∀ fs2 : FS B, s ∈ writeStates fs2 p (dump c).1 →
          ∃ pre, pre <+: (dump c).1 ∧ s.file p = some pre := by
        intro fs2 hs
        obtain ⟨pre, hpre, rfl⟩ := List.mem_map.mp hs
        exact ⟨pre, (List.mem_inits _ _).mp hpre, by simp [setFile_file]⟩
      have two : (s = fs ∨ s = fs1) → s.file p = fs.file p := by
        rintro (rfl | rfl)
        · rfl
        · exact h1
      split at hs
      · split at hs
        · split at hs
          · exact Or.inl (two (by simpa using hs))
          · rcases List.mem_append.mp hs with hs | hs
            · simp only [List.mem_cons, List.not_mem_nil, or_false] at hs
              rcases hs with rfl | rfl | rfl
              · exact Or.inl rfl
              · exact Or.inl h1
              · exact Or.inr (Or.inl (by simp [setFile_file]))
            · exact Or.inr (Or.inr (hw _ hs))
        · exact Or.inl (two (by simpa using hs))
      · rcases List.mem_append.mp hs with hs | hs
        · exact Or.inl (two (by simpa using hs))
        · exact Or.inr (Or.inr (hw _ hs))
  · intro h
    obtain ⟨p', hp', h1, -⟩ := save_ok h
    rw [hp, Except.ok.injEq] at hp'
    subst hp'; exact h1

/-- C08 fails for names: 'run.v1' and 'run.v2' are written to the same file, so the second save is refused. -/
theorem C08_names_collide (d : List Name) :
    target ⟨d, ['r', 'u', 'n', '.', 'v', '1']⟩ = target ⟨d, ['r', 'u', 'n', '.', 'v', '2']⟩ ∧
    target ⟨d, ['r', 'u', 'n', '.', 'v', '1']⟩ = .ok ⟨d, ['r', 'u', 'n', '.', 'c', 'd', 'i', 'c', 't']⟩ := by
  constructor <;> rfl

/-- Names without a dot. -/
def NoDot (n : Name) : Prop := '.' ∉ n

theorem splitSuffix_noDot {n : Name} (h : NoDot n) : splitSuffix n = (n, []) := by
  unfold splitSuffix
  have : n.reverse.dropWhile (· ≠ '.') = [] := by
    rw [List.dropWhile_eq_nil_iff]
    intro x hx
    have : x ≠ '.' := by rintro rfl; exact h (by simpa using hx)
    simpa using this
  rw [this]

/-- C08, what does hold for names: different paths whose names contain no dot are written to different files. (Missing: names
with other suffixes.) -/
theorem C08_names_partial (p q : Path) (hp : NoDot p.name) (hq : NoDot q.name) (hp0 : p.name ≠ []) (hq0 : q.name ≠ [])
    (h : target p = target q) : p = q := by
  unfold target at h
  simp only [splitSuffix_noDot hp, splitSuffix_noDot hq] at h
  have : ([] : Name) ≠ cdictSuffix := by simp [cdictSuffix]
  simp only [this, if_false, if_neg hp0, if_neg hq0, Except.ok.injEq, Path.mk.injEq] at h
  obtain ⟨h1, h2⟩ := h
  have := List.append_cancel_right h2
  cases p; cases q; simp_all

/-- Exactly when two paths clash: same directory and same name up to the suffix. -/
theorem C08_clash_iff (p q : Path) (hp0 : p.name ≠ []) (hq0 : q.name ≠ []) :
    target p = target q ↔ p.parent = q.parent ∧ (splitSuffix p.name).1 = (splitSuffix q.name).1 := by
  have key : ∀ p : Path, p.name ≠ [] → target p = .ok ⟨p.parent, (splitSuffix p.name).1 ++ cdictSuffix⟩ := by
    intro p h0
    unfold target
    split
    · rename_i h
      have := splitSuffix_eq p.name
      rw [h] at this
      rw [this]
    · rfl
  rw [key p hp0, key q hq0, Except.ok.injEq, Path.mk.injEq, List.append_left_inj]

/-! ## Non-vacuity -/

/-- Bytes are characters, pickling is the identity. -/
def sampleDump (c : List Char) : List Char × Bool := (c, true)

/-- A file system with the file `a/run.cdict` containing "old". -/
def sampleFS : FS Char where
  file := fun p => if p = ⟨[['a']], ['r', 'u', 'n', '.', 'c', 'd', 'i', 'c', 't']⟩ then some ['o', 'l', 'd'] else none
  dir := fun l => decide (l = []) || decide (l = [['a']])

/-- A save without overwrite is refused; with overwrite it passes through 7 states. -/
example :
    (save sampleDump sampleFS ['n', 'e', 'w'] ⟨[['a']], ['r', 'u', 'n']⟩ false).2 = .error .runtimeError ∧
    (save sampleDump sampleFS ['n', 'e', 'w'] ⟨[['a']], ['r', 'u', 'n']⟩ true).2 = .ok () ∧
    (save sampleDump sampleFS ['n', 'e', 'w'] ⟨[['a']], ['r', 'u', 'n']⟩ true).1.length = 7 := by
  refine ⟨by decide, by decide, by decide⟩

/-- `sampleFS` meets the hypothesis of `C07_sound`, and a save in a directory that does not exist yet succeeds there. -/
example : Sound sampleFS ∧ (save sampleDump sampleFS ['n', 'e', 'w'] ⟨[['b'], ['c']], ['r', 'u', 'n']⟩ false).2 = .ok () := by
  refine ⟨⟨fun p hp l hl => ?_, fun p hp => ?_⟩, by decide⟩
  · by_cases h : p = ⟨[['a']], ['r', 'u', 'n', '.', 'c', 'd', 'i', 'c', 't']⟩
    · subst h
      rcases List.prefix_cons_iff.1 hl with rfl | ⟨t, rfl, ht⟩
      · rfl
      · rw [List.prefix_nil] at ht; subst ht; rfl
    · simp [sampleFS, h] at hp
  · by_cases h : p = ⟨[['a']], ['r', 'u', 'n', '.', 'c', 'd', 'i', 'c', 't']⟩
    · subst h; rfl
    · simp [sampleFS, h] at hp

example : sampleFS.isDir ⟨[['a']], ['r', 'u', 'n', '.', 'c', 'd', 'i', 'c', 't']⟩ = false ∧
    (∃ fs1, mkdir sampleFS [['a']] = .ok fs1) ∧
    target ⟨[['a']], ['r', 'u', 'n']⟩ = .ok ⟨[['a']], ['r', 'u', 'n', '.', 'c', 'd', 'i', 'c', 't']⟩ := by
  refine ⟨by decide, ⟨_, rfl⟩, rfl⟩

end Mocat.Props
