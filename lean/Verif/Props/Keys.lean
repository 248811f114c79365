import Verif.Model.Keys
import Verif.Props.Mcmc
import Mathlib.Data.List.Nodup
/-!
# C22: MCMC runs never consume a random key twice
-/
namespace Mocat.Props
open Mocat Mocat.Mcmc Mocat.Keys

variable {d : ℕ}

/-- Keys derived from `k` (by any number of splits, including none). -/
def Derived (k q : Key) : Prop := k <:+ q

theorem runUses_derived (uses : Key → List (Use × Key)) (next : Key → Key)
    (hu : ∀ k, ∀ u ∈ uses k, Derived k u.2) (hn : ∀ k, Derived k (next k)) (m : ℕ) (k : Key) :
    ∀ u ∈ runUses uses next m k, Derived k u.2 := by
  induction m generalizing k with
  | zero => intro u hu; simp [runUses] at hu
  | succ m ih =>
    intro u h
    rcases List.mem_append.mp h with h | h
    · exact hu k u h
    · exact (hn k).trans (ih _ u h)

theorem runUses_nodup (uses : Key → List (Use × Key)) (next : Key → Key)
    (hu : ∀ k, ∀ u ∈ uses k, Derived k u.2) (hn : ∀ k, Derived k (next k))
    (hnd : ∀ k, ((uses k).map Prod.snd).Nodup) (hsep : ∀ k, ∀ u ∈ uses k, ¬ Derived (next k) u.2)
    (m : ℕ) (k : Key) : ((runUses uses next m k).map Prod.snd).Nodup := by
  induction m generalizing k with
  | zero => simp [runUses]
  | succ m ih =>
    rw [runUses, List.map_append, List.nodup_append]
    refine ⟨hnd k, ih _, ?_⟩
    rintro a ha b hb rfl
    obtain ⟨u, hu', rfl⟩ := List.mem_map.mp ha
    obtain ⟨v, hv', hv⟩ := List.mem_map.mp hb
    have := runUses_derived uses next hu hn m (next k) v hv'
    rw [hv] at this
    exact hsep k u hu' this

theorem not_derived_self_cons (l : List ℕ) (k q : Key) (h : l.length + k.length > q.length) :
    ¬ Derived (l ++ k) q := by
  intro hd
  have := hd.length_le
  simp at this; omega

theorem derived_same_length {k q : Key} (h : Derived k q) (hl : k.length = q.length) : k = q :=
  List.IsSuffix.eq_of_length h hl

theorem rw_derived (k : Key) : ∀ u ∈ rwUses k, Derived k u.2 := by
  intro u hu
  simp only [rwUses, List.mem_cons, List.not_mem_nil, or_false] at hu
  rcases hu with rfl | rfl | rfl | rfl | rfl
  · exact List.suffix_rfl
  · exact List.suffix_cons _ _
  · exact List.suffix_cons _ _
  · exact List.suffix_cons _ _
  · exact (List.suffix_cons 0 k).trans (List.suffix_cons _ _)

theorem rw_nodup (k : Key) : ((rwUses k).map Prod.snd).Nodup := by
  have h : ∀ l : List ℕ, l ≠ [] → l ++ k ≠ k := by
    intro l hl h; have := congrArg List.length h; simp at this; exact hl this
  have h1 := h [1] (by simp); have h2 := h [2] (by simp); have h0 := h [0] (by simp)
  have h10 := h [1, 0] (by simp)
  simp only [List.cons_append, List.nil_append] at h1 h2 h0 h10
  simp [rwUses, h1.symm, h2.symm, h0.symm, h10.symm]

theorem rw_sep (k : Key) : ∀ u ∈ rwUses k, ¬ Derived (rwNext k) u.2 := by
  intro u hu hd
  simp only [rwUses, List.mem_cons, List.not_mem_nil, or_false] at hu
  rcases hu with rfl | rfl | rfl | rfl | rfl
  · exact absurd hd.length_le (by simp [rwNext])
  · exact absurd hd.length_le (by simp [rwNext])
  · exact absurd hd.length_le (by simp [rwNext])
  · exact absurd hd.length_le (by simp [rwNext])
  · have := derived_same_length hd (by simp [rwNext]); simp [rwNext] at this

theorem ud_mem {L : ℕ} {k : Key} {u : Use × Key} (h : u ∈ udUses L k) :
    u.2 = k ∨ u.2 = 1 :: k ∨ u.2 = 0 :: k ∨ (∃ i < L, u.2 = (i + 1) :: 0 :: k) ∨ u.2 = 0 :: 0 :: k ∨
      u.2 = 1 :: 0 :: 0 :: k := by
  simp only [udUses, List.cons_append, List.nil_append, List.mem_append, List.mem_cons, List.mem_map, List.mem_range,
    List.not_mem_nil, or_false] at h
  rcases h with rfl | rfl | rfl | ⟨i, hi, rfl⟩ | rfl | rfl
  · exact Or.inl rfl
  · exact Or.inr (Or.inl rfl)
  · exact Or.inr (Or.inr (Or.inl rfl))
  · exact Or.inr (Or.inr (Or.inr (Or.inl ⟨i, hi, rfl⟩)))
  · exact Or.inr (Or.inr (Or.inr (Or.inr (Or.inl rfl))))
  · exact Or.inr (Or.inr (Or.inr (Or.inr (Or.inr rfl))))

theorem ud_derived (L : ℕ) (k : Key) : ∀ u ∈ udUses L k, Derived k u.2 := by
  intro u hu
  have h0 : k <:+ 0 :: k := List.suffix_cons _ _
  have h00 : k <:+ 0 :: 0 :: k := h0.trans (List.suffix_cons _ _)
  rcases ud_mem hu with h | h | h | ⟨i, -, h⟩ | h | h <;> rw [h]
  · exact List.suffix_rfl
  · exact List.suffix_cons _ _
  · exact h0
  · exact h0.trans (List.suffix_cons _ _)
  · exact h00
  · exact h00.trans (List.suffix_cons _ _)

theorem ud_sep (L : ℕ) (k : Key) : ∀ u ∈ udUses L k, ¬ Derived (udNext k) u.2 := by
  intro u hu hd
  rcases ud_mem hu with h | h | h | ⟨i, -, h⟩ | h | h <;> rw [h] at hd
  · exact absurd hd.length_le (by simp [udNext]; omega)
  · exact absurd hd.length_le (by simp [udNext])
  · exact absurd hd.length_le (by simp [udNext])
  · exact absurd hd.length_le (by simp [udNext])
  · exact absurd hd.length_le (by simp [udNext])
  · have := derived_same_length hd (by simp [udNext]); simp [udNext] at this

theorem ud_nodup (L : ℕ) (k : Key) : ((udUses L k).map Prod.snd).Nodup := by
  have hne : ∀ (l : List ℕ), l ≠ [] → k ≠ l ++ k := by
    intro l hl h; have := congrArg List.length h; simp at this; exact hl this
  have h1 := hne [1] (by simp); have h0 := hne [0] (by simp)
  have h00 := hne [0, 0] (by simp); have h100 := hne [1, 0, 0] (by simp)
  have hi := fun i => hne [i, 0] (by simp)
  simp only [List.cons_append, List.nil_append] at h1 h0 h00 h100 hi
  have hpot : ((List.range L).map (fun i => (i + 1) :: 0 :: k)).Nodup := by
    refine List.Nodup.map ?_ List.nodup_range
    intro a b hab; simpa using hab
  simp only [udUses, List.map_append, List.map_cons, List.map_nil, List.map_map]
  rw [List.nodup_append, List.nodup_append]
  refine ⟨⟨by simp [h1, h0], hpot, ?_⟩, by simp, ?_⟩
  · intro a ha b hb
    obtain ⟨i, -, rfl⟩ := List.mem_map.mp hb
    simp only [List.mem_cons, List.not_mem_nil, or_false] at ha
    rcases ha with rfl | rfl | rfl
    · exact hi _
    · simp [h0]
    · simp
  · intro a ha b hb
    have hb : b = 0 :: 0 :: k ∨ b = 1 :: 0 :: 0 :: k := by simpa using hb
    rcases List.mem_append.mp ha with ha | ha
    · simp only [List.mem_cons, List.not_mem_nil, or_false] at ha
      rcases ha with rfl | rfl | rfl <;> rcases hb with rfl | rfl <;> simp [h0, h00, h100]
    · obtain ⟨i, -, rfl⟩ := List.mem_map.mp ha
      rcases hb with rfl | rfl <;> simp

theorem startup_facts (b : Bool) (k : Key) :
    ((startupUses b k).map Prod.snd).Nodup ∧ ∀ u ∈ startupUses b k, ¬ Derived (startupNext b k) u.2 := by
  have hne : ∀ (l : List ℕ), l ≠ [] → k ≠ l ++ k := by
    intro l hl h; have := congrArg List.length h; simp at this; exact hl this
  have h1 := hne [1] (by simp); have h0 := hne [0] (by simp); have h10 := hne [1, 0] (by simp)
  simp only [List.cons_append, List.nil_append] at h1 h0 h10
  cases b
  · refine ⟨by simp [startupUses, h1], ?_⟩
    intro u hu hd
    simp only [startupUses, Bool.false_eq_true, if_false, List.mem_cons, List.not_mem_nil, or_false] at hu
    rcases hu with rfl | rfl
    · exact absurd hd.length_le (by simp [startupNext])
    · have := derived_same_length hd (by simp [startupNext]); simp [startupNext] at this
  · refine ⟨by simp [startupUses, h1, h0, h10], ?_⟩
    intro u hu hd
    simp only [startupUses, if_true, List.mem_cons, List.not_mem_nil, or_false] at hu
    rcases hu with rfl | rfl | rfl | rfl
    · exact absurd hd.length_le (by simp [startupNext])
    · exact absurd hd.length_le (by simp [startupNext])
    · exact absurd hd.length_le (by simp [startupNext])
    · have := derived_same_length hd (by simp [startupNext]); simp [startupNext] at this

theorem full_nodup (b : Bool) (uses : Key → List (Use × Key)) (next : Key → Key)
    (hu : ∀ k, ∀ u ∈ uses k, Derived k u.2) (hn : ∀ k, Derived k (next k))
    (hnd : ∀ k, ((uses k).map Prod.snd).Nodup) (hsep : ∀ k, ∀ u ∈ uses k, ¬ Derived (next k) u.2)
    (m : ℕ) (k : Key) :
    ((startupUses b k ++ runUses uses next m (startupNext b k)).map Prod.snd).Nodup := by
  rw [List.map_append, List.nodup_append]
  refine ⟨(startup_facts b k).1, runUses_nodup uses next hu hn hnd hsep m _, ?_⟩
  rintro a ha c hc rfl
  obtain ⟨u, hu', rfl⟩ := List.mem_map.mp ha
  obtain ⟨v, hv', hv⟩ := List.mem_map.mp hc
  have := runUses_derived uses next hu hn m _ v hv'
  rw [hv] at this
  exact (startup_facts b k).2 u hu' this

/-- C22, RandomWalk: in start-up and any number of updates no key is used twice, whether by draws, splits or
potential evaluations. -/
theorem C22_randomWalk_nodup (priorSample : Bool) (m : ℕ) (k : Key) :
    ((startupUses priorSample k ++ runUses rwUses rwNext m (startupNext priorSample k)).map Prod.snd).Nodup :=
  full_nodup _ _ _ rw_derived (fun k => (List.suffix_cons 0 k).trans (List.suffix_cons _ _)) rw_nodup rw_sep m k

/-- C22, Underdamped with any number of leapfrog steps. -/
theorem C22_underdamped_nodup (priorSample : Bool) (L m : ℕ) (k : Key) :
    ((startupUses priorSample k ++ runUses (udUses L) udNext m (startupNext priorSample k)).map Prod.snd).Nodup :=
  full_nodup _ _ _ (ud_derived L) (fun k => ((List.suffix_cons 0 k).trans (List.suffix_cons _ _)).trans
    (List.suffix_cons _ _)) (ud_nodup L) (ud_sep L) m k

/-! The lists of uses are those of the modelled code: an update depends on draws and potentials only at the
listed keys, and leaves exactly the listed next key, whether it accepts or rejects. -/

theorem metropolis_congr {σ π : Type*} (uniform uniform' : Key → ℝ) (smp smp' : Sampler Key σ π) (rs : State σ)
    (re : Extra Key π) (ps : State σ) (pe : Extra Key π)
    (ha : smp.acceptance rs re ps pe = smp'.acceptance rs re ps pe)
    (h : uniform (1 :: pe.key) = uniform' (1 :: pe.key)) :
    metropolis Keys.split uniform smp rs re ps pe = metropolis Keys.split uniform' smp' rs re ps pe := by
  have h : uniform (Keys.split pe.key).2 = uniform' (Keys.split pe.key).2 := h
  unfold metropolis
  dsimp only
  rw [ha, h]

/-- C22: two sources of randomness (and two noisy scenarios) that agree at the keys of `rwUses k` give the same
RandomWalk update from key `k`. -/
theorem C22_randomWalk_uses (normal normal' : Key → Fin d → ℝ) (uniform uniform' : Key → ℝ)
    (pot pot' : (Fin d → ℝ) → Key → Fl) (s : State (RWPayload d)) (e : Extra Key ℝ)
    (hn : ∀ k, (Use.normal, k) ∈ rwUses e.key → normal k = normal' k)
    (hu : ∀ k, (Use.uniform, k) ∈ rwUses e.key → uniform k = uniform' k)
    (hp : ∀ k, (Use.potential, k) ∈ rwUses e.key → ∀ x, pot x k = pot' x k) :
    update (randomWalk Keys.split3 normal pot) (metropolis Keys.split uniform) s e
      = update (randomWalk Keys.split3 normal' pot') (metropolis Keys.split uniform') s e := by
  have h1 := hn (1 :: e.key) (by simp [rwUses])
  have h2 := hu (1 :: 0 :: e.key) (by simp [rwUses])
  have h3 := hp (2 :: e.key) (by simp [rwUses])
  have hprop : ∀ s, (randomWalk Keys.split3 normal pot).proposal s { e with iter := e.iter + 1 }
      = (randomWalk Keys.split3 normal' pot').proposal s { e with iter := e.iter + 1 } := by
    intro s; simp only [randomWalk, Keys.split3, h1, h3]
  have hal : (randomWalk Keys.split3 normal pot).always s { e with iter := e.iter + 1 }
      = (randomWalk Keys.split3 normal' pot').always s { e with iter := e.iter + 1 } := rfl
  unfold update
  dsimp -proj -iota only
  rw [hal]
  have e2 : ((randomWalk Keys.split3 normal' pot').always s { e with iter := e.iter + 1 }).2
    = { e with iter := e.iter + 1 } := rfl
  rw [e2, hprop]
  exact metropolis_congr _ _ _ _ _ _ _ _ rfl h2

/-- C22: the key left by a RandomWalk update, accepted or not. -/
theorem C22_randomWalk_next (normal : Key → Fin d → ℝ) (uniform : Key → ℝ)
    (pot : (Fin d → ℝ) → Key → Fl) (s : State (RWPayload d)) (e : Extra Key ℝ) :
    (update (randomWalk Keys.split3 normal pot) (metropolis Keys.split uniform) s e).2.key = rwNext e.key := rfl

theorem scan_congr_list {α κ β : Type*} (f g : α → κ → α × β) (s : α) (l : List κ)
    (h : ∀ k ∈ l, ∀ s, f s k = g s k) : scan f s l = scan g s l := by
  induction l generalizing s with
  | nil => rfl
  | cons k ks ih =>
    simp only [scan]
    rw [h k (List.mem_cons_self) s, ih _ (fun k hk => h k (List.mem_cons_of_mem _ hk))]

/-- C22: the same for Underdamped. -/
theorem C22_underdamped_uses (L : ℕ) (T : ℝ) (normal normal' : Key → Fin d → ℝ) (uniform uniform' : Key → ℝ)
    (prior prior' lik lik' : ValGrad Key d) (s : State (LfState d)) (e : Extra Key UDParams)
    (hn : ∀ k, (Use.normal, k) ∈ udUses L e.key → normal k = normal' k)
    (hu : ∀ k, (Use.uniform, k) ∈ udUses L e.key → uniform k = uniform' k)
    (hp : ∀ k, (Use.potential, k) ∈ udUses L e.key → ∀ x, prior x k = prior' x k)
    (hl : ∀ k, (Use.potential, k) ∈ udUses L e.key → ∀ x, lik x k = lik' x k) :
    update (underdamped Keys.split Keys.splitN normal prior lik T L) (metropolis Keys.split uniform) s e
      = update (underdamped Keys.split Keys.splitN normal' prior' lik' T L) (metropolis Keys.split uniform') s e := by
  have h1 := hn (1 :: e.key) (by simp [udUses])
  have h2 := hu (1 :: 0 :: 0 :: e.key) (by simp [udUses])
  have hmem : ∀ k ∈ (Keys.splitN (0 :: e.key) L).2, (Use.potential, k) ∈ udUses L e.key := by
    intro k hk
    obtain ⟨i, hi, rfl⟩ := List.mem_map.mp hk
    simp only [udUses, List.mem_append, List.mem_map]
    exact Or.inl (Or.inr ⟨i, hi, rfl⟩)
  have hal : (underdamped Keys.split Keys.splitN normal prior lik T L).always s { e with iter := e.iter + 1 }
      = (underdamped Keys.split Keys.splitN normal' prior' lik' T L).always s { e with iter := e.iter + 1 } := by
    simp only [underdamped, Keys.split, h1]
  have hprop : ∀ (s : State (LfState d)) (e' : Extra Key UDParams), e'.key = 0 :: e.key →
      (underdamped Keys.split Keys.splitN normal prior lik T L).proposal s e'
      = (underdamped Keys.split Keys.splitN normal' prior' lik' T L).proposal s e' := by
    intro s e' he'
    have hlf : leapfrog prior lik s.payload e'.params.stepsize (Keys.splitN (0 :: e.key) L).2 T
        = leapfrog prior' lik' s.payload e'.params.stepsize (Keys.splitN (0 :: e.key) L).2 T := by
      unfold leapfrog
      rw [scan_congr_list (leapfrogStep prior lik e'.params.stepsize T)
        (leapfrogStep prior' lik' e'.params.stepsize T) s.payload _ ?_]
      intro k hk s
      simp only [leapfrogStep, hp k (hmem k hk), hl k (hmem k hk)]
    simp only [underdamped, he', hlf]
  have hkey : ((underdamped Keys.split Keys.splitN normal' prior' lik' T L).always s
    { e with iter := e.iter + 1 }).2.key = 0 :: e.key := rfl
  unfold update
  dsimp -proj -iota only
  rw [hal]
  rw [hprop _ _ hkey]
  exact metropolis_congr _ _ _ _ _ _ _ _ rfl h2

/-- C22: the key left by an Underdamped update, accepted or not. -/
theorem C22_underdamped_next (L : ℕ) (T : ℝ) (normal : Key → Fin d → ℝ) (uniform : Key → ℝ)
    (prior lik : ValGrad Key d) (s : State (LfState d)) (e : Extra Key UDParams) :
    (update (underdamped Keys.split Keys.splitN normal prior lik T L) (metropolis Keys.split uniform) s e).2.key
      = udNext e.key := rfl

theorem bodyIter_agree {σ π : Type*} (f f' : State σ → Extra Key π → State σ × Extra Key π)
    (uses : Key → List (Use × Key)) (next : Key → Key) (agree : Use × Key → Prop)
    (hf : ∀ s e, (∀ u ∈ uses e.key, agree u) → f s e = f' s e) (hk : ∀ s e, (f' s e).2.key = next e.key) :
    ∀ (i m : ℕ) (s : State σ) (e : Extra Key π), i ≤ m → (∀ u ∈ runUses uses next m e.key, agree u) →
      bodyIter f i (s, e) = bodyIter f' i (s, e) := by
  intro i
  induction i with
  | zero => intros; rfl
  | succ i ih =>
    intro m s e him hag
    obtain ⟨m, rfl⟩ : ∃ m', m = m' + 1 := ⟨m - 1, by omega⟩
    have hup := hf s e (fun u hu => hag u (List.mem_append_left _ hu))
    have unf : ∀ (g : State σ → Extra Key π → State σ × Extra Key π) (c),
        bodyIter g (i + 1) c = bodyIter g i (g c.1 c.2) := by
      intro g c; simp [bodyIter, Function.iterate_succ_apply]
    rw [unf, unf, hup]
    refine ih m (f' s e).1 (f' s e).2 (by omega) ?_
    intro u hu
    rw [hk] at hu
    exact hag u (List.mem_append_right _ hu)

/-- C22, whole runs of RandomWalk: the states of a run of any size started at key `k` are determined by the draws and
potentials at the keys listed by `runUses` (which has no repetition by `C22_randomWalk_nodup`). -/
theorem C22_randomWalk_run (n : ℤ) (normal normal' : Key → Fin d → ℝ) (uniform uniform' : Key → ℝ)
    (pot pot' : (Fin d → ℝ) → Key → Fl) (s : State (RWPayload d)) (e : Extra Key ℝ)
    (hn : ∀ k, (Use.normal, k) ∈ runUses rwUses rwNext (n - 1 - e.iter).toNat e.key → normal k = normal' k)
    (hu : ∀ k, (Use.uniform, k) ∈ runUses rwUses rwNext (n - 1 - e.iter).toNat e.key → uniform k = uniform' k)
    (hp : ∀ k, (Use.potential, k) ∈ runUses rwUses rwNext (n - 1 - e.iter).toNat e.key → ∀ x, pot x k = pot' x k) :
    runFrom (randomWalk Keys.split3 normal pot) (metropolis Keys.split uniform) n s e
      = runFrom (randomWalk Keys.split3 normal' pot') (metropolis Keys.split uniform') n s e := by
  rw [C12_mcmc _ _ (keepsIter_randomWalk _ _ _) (corrKeepsIter_metropolis _ _),
    C12_mcmc _ _ (keepsIter_randomWalk _ _ _) (corrKeepsIter_metropolis _ _)]
  generalize (n - 1 - (e.iter : ℤ)).toNat = m at *
  refine List.map_congr_left fun i hi => congrArg Prod.fst ?_
  have hi : i ≤ m := by have := List.mem_range.mp hi; omega
  refine bodyIter_agree _ _ rwUses rwNext
    (fun u => (u.1 = .normal → normal u.2 = normal' u.2) ∧ (u.1 = .uniform → uniform u.2 = uniform' u.2) ∧
      (u.1 = .potential → ∀ x, pot x u.2 = pot' x u.2)) ?_ (C22_randomWalk_next _ _ _) i m s e hi ?_
  · intro s e h
    exact C22_randomWalk_uses _ _ _ _ _ _ s e (fun k hk => (h _ hk).1 rfl) (fun k hk => (h _ hk).2.1 rfl)
      (fun k hk => (h _ hk).2.2 rfl)
  · rintro ⟨a, k⟩ hmem
    refine ⟨?_, ?_, ?_⟩ <;> (rintro rfl)
    · exact hn k hmem
    · exact hu k hmem
    · exact hp k hmem

/-- C22, whole runs of Underdamped. -/
theorem C22_underdamped_run (n : ℤ) (L : ℕ) (T : ℝ) (normal normal' : Key → Fin d → ℝ) (uniform uniform' : Key → ℝ)
    (prior prior' lik lik' : ValGrad Key d) (s : State (LfState d)) (e : Extra Key UDParams)
    (hn : ∀ k, (Use.normal, k) ∈ runUses (udUses L) udNext (n - 1 - e.iter).toNat e.key → normal k = normal' k)
    (hu : ∀ k, (Use.uniform, k) ∈ runUses (udUses L) udNext (n - 1 - e.iter).toNat e.key → uniform k = uniform' k)
    (hp : ∀ k, (Use.potential, k) ∈ runUses (udUses L) udNext (n - 1 - e.iter).toNat e.key →
      ∀ x, prior x k = prior' x k ∧ lik x k = lik' x k) :
    runFrom (underdamped Keys.split Keys.splitN normal prior lik T L) (metropolis Keys.split uniform) n s e
      = runFrom (underdamped Keys.split Keys.splitN normal' prior' lik' T L) (metropolis Keys.split uniform') n s e := by
  rw [C12_mcmc _ _ (keepsIter_underdamped _ _ _ _ _ _ _) (corrKeepsIter_metropolis _ _),
    C12_mcmc _ _ (keepsIter_underdamped _ _ _ _ _ _ _) (corrKeepsIter_metropolis _ _)]
  generalize (n - 1 - (e.iter : ℤ)).toNat = m at *
  refine List.map_congr_left fun i hi => congrArg Prod.fst ?_
  have hi : i ≤ m := by have := List.mem_range.mp hi; omega
  refine bodyIter_agree _ _ (udUses L) udNext
    (fun u => (u.1 = .normal → normal u.2 = normal' u.2) ∧ (u.1 = .uniform → uniform u.2 = uniform' u.2) ∧
      (u.1 = .potential → ∀ x, prior x u.2 = prior' x u.2 ∧ lik x u.2 = lik' x u.2)) ?_
    (C22_underdamped_next _ _ _ _ _ _) i m s e hi ?_
  · intro s e h
    exact C22_underdamped_uses L T _ _ _ _ _ _ _ _ s e (fun k hk => (h _ hk).1 rfl) (fun k hk => (h _ hk).2.1 rfl)
      (fun k hk x => ((h _ hk).2.2 rfl x).1) (fun k hk x => ((h _ hk).2.2 rfl x).2)
  · rintro ⟨a, k⟩ hmem
    refine ⟨?_, ?_, ?_⟩ <;> (rintro rfl)
    · exact hn k hmem
    · exact hu k hmem
    · exact hp k hmem

/-- Non-vacuity: two updates of Underdamped with two leapfrog steps use 14 keys. -/
example : (runUses (udUses 2) udNext 2 []).length = 14 := by decide

end Mocat.Props
