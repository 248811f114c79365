import Verif.Props.Keys
import Verif.Props.Abc
import Verif.Model.QN
/-!
# C22 for `QNUnderdamped` and `RandomWalkABC`
-/
namespace Mocat.Props
open Mocat Mocat.Mcmc Mocat.Keys Mocat.QN Mocat.Abc

variable {d : ℕ} {D : Type*}

/-! ## No key is used twice -/

/-- What makes a start-up fit together with a chain of updates. -/
structure StartOk (uses : Key → List (Use × Key)) (next : Key → Key) : Prop where
  derived : ∀ k, ∀ u ∈ uses k, Derived k u.2
  step : ∀ k, Derived k (next k)
  nodup : ∀ k, ((uses k).map Prod.snd).Nodup
  sep : ∀ k, ∀ u ∈ uses k, ¬ Derived (next k) u.2

theorem derived_cons (i : ℕ) {k q : Key} (h : Derived k q) : Derived k (i :: q) := h.trans (List.suffix_cons _ _)

theorem not_derived_cons {i j : ℕ} (h : i ≠ j) (l : List ℕ) (k : Key) : ¬ Derived (i :: k) (l ++ j :: k) := by
  intro hd
  have h1 : (j :: k) <:+ l ++ j :: k := List.suffix_append _ _
  have h2 : Derived (i :: k) (j :: k) := List.suffix_of_suffix_length_le hd h1 (by simp)
  exact h (List.cons.inj (derived_same_length h2 (by simp))).1

theorem chain_nodup (b : Bool) {start uses : Key → List (Use × Key)} {startNext next : Key → Key} (hs : StartOk start startNext) (hu : StartOk uses next) (m : ℕ) (k : Key) :
    ((withPrior b start k ++ runUses uses next m (startNext (if b then 0 :: k else k))).map Prod.snd).Nodup := by
  have main : ∀ k, ((start k ++ runUses uses next m (startNext k)).map Prod.snd).Nodup := by
    intro k
    rw [List.map_append, List.nodup_append]
    refine ⟨hs.nodup k, runUses_nodup uses next hu.derived hu.step hu.nodup hu.sep m _, ?_⟩
    rintro a ha c hc rfl
    obtain ⟨u, hu', rfl⟩ := List.mem_map.mp ha
    obtain ⟨v, hv', hv⟩ := List.mem_map.mp hc
    have := runUses_derived uses next hu.derived hu.step m _ v hv'
    rw [hv] at this
    exact hs.sep k u hu' this
  cases b
  · exact main k
  · have hd : ∀ u ∈ start (0 :: k) ++ runUses uses next m (startNext (0 :: k)), Derived (0 :: k) u.2 := by
      intro u hu'
      rcases List.mem_append.mp hu' with h | h
      · exact hs.derived _ u h
      · exact (hs.step _).trans (runUses_derived uses next hu.derived hu.step m _ u h)
    have h := main (0 :: k)
    simp only [withPrior, if_true, List.cons_append, List.nil_append, List.map_cons, List.nodup_cons, List.mem_cons, not_or]
    refine ⟨⟨fun h => by simpa using congrArg List.length h, ?_⟩, ?_, h⟩
    · intro hm
      obtain ⟨u, hu', e⟩ := List.mem_map.mp hm
      have := (hd u hu').length_le
      rw [e] at this; simp at this
    · intro hm
      obtain ⟨u, hu', e⟩ := List.mem_map.mp hm
      have := hd u hu'
      rw [e] at this
      exact not_derived_cons (by decide) [] k this

theorem ud_ok (L : ℕ) : StartOk (udUses L) udNext :=
  ⟨ud_derived L, fun _ => derived_cons _ (derived_cons _ (derived_cons _ List.suffix_rfl)), ud_nodup L, ud_sep L⟩

theorem not_derived_short {k q : Key} (h : q.length < k.length) : ¬ Derived k q := fun hd => absurd hd.length_le (by omega)

theorem cons_ne (l : List ℕ) (k : Key) (hl : l ≠ []) : k ≠ l ++ k := by
  intro h; have := congrArg List.length h; simp at this; exact hl this

theorem qnStartup_ok : StartOk qnStartupUses fun k => 0 :: k := by
  refine ⟨?_, fun k => derived_cons _ List.suffix_rfl, fun k => ?_, ?_⟩
  · intro k u hu
    simp only [qnStartupUses, List.mem_cons, List.not_mem_nil, or_false] at hu
    rcases hu with rfl | rfl | rfl
    · exact List.suffix_rfl
    · exact derived_cons _ List.suffix_rfl
    · exact derived_cons _ List.suffix_rfl
  · have h1 := cons_ne [1] k (by simp); have h2 := cons_ne [2] k (by simp)
    simp only [List.cons_append, List.nil_append] at h1 h2
    simp [qnStartupUses, h1, h2]
  · intro k u hu
    simp only [qnStartupUses, List.mem_cons, List.not_mem_nil, or_false] at hu
    rcases hu with rfl | rfl | rfl
    · exact not_derived_short (by simp)
    · exact not_derived_cons (by decide) [] k
    · exact not_derived_cons (by decide) [] k

theorem abcStartup_ok : StartOk abcStartupUses fun k => 0 :: 0 :: k := by
  refine ⟨?_, fun k => derived_cons _ (derived_cons _ List.suffix_rfl), fun k => ?_, ?_⟩
  · intro k u hu
    simp only [abcStartupUses, List.mem_cons, List.not_mem_nil, or_false] at hu
    rcases hu with rfl | rfl | rfl | rfl
    · exact List.suffix_rfl
    · exact derived_cons _ List.suffix_rfl
    · exact derived_cons _ List.suffix_rfl
    · exact derived_cons _ (derived_cons _ List.suffix_rfl)
  · have h1 := cons_ne [1] k (by simp); have h2 := cons_ne [0] k (by simp); have h3 := cons_ne [1, 0] k (by simp)
    simp only [List.cons_append, List.nil_append] at h1 h2 h3
    simp [abcStartupUses, h1, h2, h3]
  · intro k u hu
    simp only [abcStartupUses, List.mem_cons, List.not_mem_nil, or_false] at hu
    rcases hu with rfl | rfl | rfl | rfl
    · exact not_derived_short (by simp)
    · exact not_derived_short (by simp)
    · exact not_derived_short (by simp)
    · exact not_derived_cons (by decide) [] (0 :: k)

theorem abc_ok : StartOk abcUses abcNext := by
  refine ⟨?_, fun k => derived_cons _ (derived_cons _ (derived_cons _ List.suffix_rfl)), fun k => ?_, ?_⟩
  · intro k u hu
    simp only [abcUses, List.mem_cons, List.not_mem_nil, or_false] at hu
    rcases hu with rfl | rfl | rfl | rfl | rfl | rfl | rfl
    · exact List.suffix_rfl
    · exact derived_cons _ List.suffix_rfl
    · exact derived_cons _ (derived_cons _ List.suffix_rfl)
    · exact derived_cons _ (derived_cons _ List.suffix_rfl)
    · exact derived_cons _ (derived_cons _ List.suffix_rfl)
    · exact derived_cons _ (derived_cons _ List.suffix_rfl)
    · exact derived_cons _ (derived_cons _ (derived_cons _ List.suffix_rfl))
  · have h1 := cons_ne [0] k (by simp)
    have h2 := fun i => cons_ne [i, 0] k (by simp)
    have h3 := cons_ne [1, 0, 0] k (by simp)
    simp only [List.cons_append, List.nil_append] at h1 h2 h3
    simp [abcUses, h1, h2, h3]
  · intro k u hu
    simp only [abcUses, List.mem_cons, List.not_mem_nil, or_false] at hu
    rcases hu with rfl | rfl | rfl | rfl | rfl | rfl | rfl
    · exact not_derived_short (by simp [abcNext]; omega)
    · exact not_derived_short (by simp [abcNext])
    · exact not_derived_short (by simp [abcNext])
    · exact not_derived_short (by simp [abcNext])
    · exact not_derived_short (by simp [abcNext])
    · exact not_derived_short (by simp [abcNext])
    · exact not_derived_cons (by decide) [] (0 :: 0 :: k)

/-- C22, QNUnderdamped with any number of leapfrog steps: in start-up and any number of updates no key is used twice. -/
theorem C22_qn_nodup (priorSample : Bool) (L m : ℕ) (k : Key) :
    ((withPrior priorSample qnStartupUses k ++ runUses (udUses L) udNext m (0 :: if priorSample then 0 :: k else k)).map Prod.snd).Nodup :=
  chain_nodup priorSample qnStartup_ok (ud_ok L) m k

/-- C22, RandomWalkABC: in start-up and any number of updates no key is used twice. -/
theorem C22_abc_nodup (priorSample : Bool) (m : ℕ) (k : Key) :
    ((withPrior priorSample abcStartupUses k ++ runUses abcUses abcNext m (0 :: 0 :: if priorSample then 0 :: k else k)).map Prod.snd).Nodup :=
  chain_nodup priorSample abcStartup_ok abc_ok m k

/-! ## The lists of uses are those of the modelled code -/

/-- C22: an update of QNUnderdamped depends on draws and potentials only at the keys an Underdamped update uses. -/
theorem C22_qn_uses (L : ℕ) (T : ℝ) (argsort : Option (List Fl → List ℕ)) (r : Option ℝ) (normal normal' : Key → Fin d → ℝ) (uniform uniform' : Key → ℝ)
    (prior prior' lik lik' : ValGrad Key d) (s : State (QNState d)) (e : Extra Key QNParams)
    (hn : ∀ k, (Use.normal, k) ∈ udUses L e.key → normal k = normal' k)
    (hu : ∀ k, (Use.uniform, k) ∈ udUses L e.key → uniform k = uniform' k)
    (hp : ∀ k, (Use.potential, k) ∈ udUses L e.key → ∀ x, prior x k = prior' x k ∧ lik x k = lik' x k) :
    update (qnUnderdamped Keys.split Keys.splitN normal argsort prior lik T L r) (metropolis Keys.split uniform) s e
      = update (qnUnderdamped Keys.split Keys.splitN normal' argsort prior' lik' T L r) (metropolis Keys.split uniform') s e := by
  have h1 := hn (1 :: e.key) (by simp [udUses])
  have h2 := hu (1 :: 0 :: 0 :: e.key) (by simp [udUses])
  have hmem : ∀ k ∈ (Keys.splitN (0 :: e.key) L).2, (Use.potential, k) ∈ udUses L e.key := by
    intro k hk
    obtain ⟨i, hi, rfl⟩ := List.mem_map.mp hk
    simp only [udUses, List.mem_append, List.mem_map]
    exact Or.inl (Or.inr ⟨i, hi, rfl⟩)
  have hal : (qnUnderdamped Keys.split Keys.splitN normal argsort prior lik T L r).always s { e with iter := e.iter + 1 }
      = (qnUnderdamped Keys.split Keys.splitN normal' argsort prior' lik' T L r).always s { e with iter := e.iter + 1 } := by
    simp only [qnUnderdamped, Keys.split, h1]
  have hprop : ∀ (s : State (QNState d)) (e' : Extra Key QNParams), e'.key = 0 :: e.key →
      (qnUnderdamped Keys.split Keys.splitN normal argsort prior lik T L r).proposal s e'
      = (qnUnderdamped Keys.split Keys.splitN normal' argsort prior' lik' T L r).proposal s e' := by
    intro s e' he'
    have hlf : ∀ pq dg, bfgsLeapfrog prior lik s.payload.lf e'.params.ud.stepsize (Keys.splitN (0 :: e.key) L).2 pq dg T
        = bfgsLeapfrog prior' lik' s.payload.lf e'.params.ud.stepsize (Keys.splitN (0 :: e.key) L).2 pq dg T := by
      intro pq dg
      unfold bfgsLeapfrog
      rw [scan_congr_list (bfgsLeapfrogStep prior lik e'.params.ud.stepsize T pq dg)
        (bfgsLeapfrogStep prior' lik' e'.params.ud.stepsize T pq dg) s.payload.lf _ ?_]
      intro k hk s
      have hx := fun x => hp k (hmem k hk) x
      simp only [bfgsLeapfrogStep, (hx _).1, (hx _).2]
    simp only [qnUnderdamped, he', hlf]
  have hkey : ((qnUnderdamped Keys.split Keys.splitN normal' argsort prior' lik' T L r).always s
    { e with iter := e.iter + 1 }).2.key = 0 :: e.key := rfl
  unfold update
  dsimp -proj -iota only
  rw [hal]
  rw [hprop _ _ hkey]
  exact metropolis_congr _ _ _ _ _ _ _ _ rfl h2

/-- C22: the key left by a QNUnderdamped update, accepted or not. -/
theorem C22_qn_next (L : ℕ) (T : ℝ) (argsort : Option (List Fl → List ℕ)) (r : Option ℝ) (normal : Key → Fin d → ℝ) (uniform : Key → ℝ)
    (prior lik : ValGrad Key d) (s : State (QNState d)) (e : Extra Key QNParams) :
    (update (qnUnderdamped Keys.split Keys.splitN normal argsort prior lik T L r) (metropolis Keys.split uniform) s e).2.key = udNext e.key := rfl

theorem keepsIter_qn {K : Type*} (split : K → K × K) (splitN : K → ℕ → K × List K) (normal : K → Fin d → ℝ) (argsort : Option (List Fl → List ℕ))
    (prior lik : ValGrad K d) (T : ℝ) (L : ℕ) (r : Option ℝ) : KeepsIter (qnUnderdamped split splitN normal argsort prior lik T L r) :=
  ⟨fun _ _ => rfl, fun _ _ => rfl⟩

/-- C22, whole runs of QNUnderdamped: the states of a run of any size are determined by the draws and potentials at the keys listed by `runUses`
(which has no repetition by `C22_qn_nodup`). -/
theorem C22_qn_run (n : ℤ) (L : ℕ) (T : ℝ) (argsort : Option (List Fl → List ℕ)) (r : Option ℝ) (normal normal' : Key → Fin d → ℝ) (uniform uniform' : Key → ℝ)
    (prior prior' lik lik' : ValGrad Key d) (s : State (QNState d)) (e : Extra Key QNParams)
    (hn : ∀ k, (Use.normal, k) ∈ runUses (udUses L) udNext (n - 1 - e.iter).toNat e.key → normal k = normal' k)
    (hu : ∀ k, (Use.uniform, k) ∈ runUses (udUses L) udNext (n - 1 - e.iter).toNat e.key → uniform k = uniform' k)
    (hp : ∀ k, (Use.potential, k) ∈ runUses (udUses L) udNext (n - 1 - e.iter).toNat e.key →
      ∀ x, prior x k = prior' x k ∧ lik x k = lik' x k) :
    runFrom (qnUnderdamped Keys.split Keys.splitN normal argsort prior lik T L r) (metropolis Keys.split uniform) n s e
      = runFrom (qnUnderdamped Keys.split Keys.splitN normal' argsort prior' lik' T L r) (metropolis Keys.split uniform') n s e := by
  rw [C12_mcmc _ _ (keepsIter_qn _ _ _ _ _ _ _ _ _) (corrKeepsIter_metropolis _ _),
    C12_mcmc _ _ (keepsIter_qn _ _ _ _ _ _ _ _ _) (corrKeepsIter_metropolis _ _)]
  generalize (n - 1 - (e.iter : ℤ)).toNat = m at *
  refine List.map_congr_left fun i hi => congrArg Prod.fst ?_
  have hi : i ≤ m := by have := List.mem_range.mp hi; omega
  refine bodyIter_agree _ _ (udUses L) udNext
    (fun u => (u.1 = .normal → normal u.2 = normal' u.2) ∧ (u.1 = .uniform → uniform u.2 = uniform' u.2) ∧
      (u.1 = .potential → ∀ x, prior x u.2 = prior' x u.2 ∧ lik x u.2 = lik' x u.2)) ?_
    (C22_qn_next _ _ _ _ _ _ _ _) i m s e hi ?_
  · intro s e h
    exact C22_qn_uses L T argsort r _ _ _ _ _ _ _ _ s e (fun k hk => (h _ hk).1 rfl) (fun k hk => (h _ hk).2.1 rfl)
      (fun k hk x => ((h _ hk).2.2 rfl x))
  · rintro ⟨a, k⟩ hmem
    refine ⟨?_, ?_, ?_⟩ <;> (rintro rfl)
    · exact hn k hmem
    · exact hu k hmem
    · exact hp k hmem

/-- C22: an update of RandomWalkABC depends on draws, prior potentials and simulations only at the listed keys. -/
theorem C22_abc_uses (normal normal' : Key → Fin d → ℝ) (uniform uniform' : Key → ℝ) (sc sc' : Abc.Scenario Key (Fin d → ℝ) D) (hd : sc.distance = sc'.distance)
    (s : State (Payload d D)) (e : Extra Key (Params d))
    (hn : ∀ k, (Use.normal, k) ∈ abcUses e.key → normal k = normal' k)
    (hu : ∀ k, (Use.uniform, k) ∈ abcUses e.key → uniform k = uniform' k)
    (hp : ∀ k, (Use.potential, k) ∈ abcUses e.key → ∀ x, sc.priorPotential x k = sc'.priorPotential x k)
    (hs : ∀ k, (Use.simulate, k) ∈ abcUses e.key → ∀ x, sc.likelihoodSample x k = sc'.likelihoodSample x k) :
    update (randomWalkABC Keys.split Keys.split4 normal sc) (metropolis Keys.split uniform) s e
      = update (randomWalkABC Keys.split Keys.split4 normal' sc') (metropolis Keys.split uniform') s e := by
  have h1 := hn (1 :: 0 :: e.key) (by simp [abcUses])
  have h2 := hu (1 :: 0 :: 0 :: e.key) (by simp [abcUses])
  have h3 := hp (2 :: 0 :: e.key) (by simp [abcUses])
  have h4 := hs (3 :: 0 :: e.key) (by simp [abcUses])
  have hprop : ∀ (s : State (Payload d D)) (e' : Extra Key (Params d)), e'.key = 0 :: e.key →
      (randomWalkABC Keys.split Keys.split4 normal sc).proposal s e' = (randomWalkABC Keys.split Keys.split4 normal' sc').proposal s e' := by
    intro s e' he'
    simp only [randomWalkABC, he', Keys.split4, h1, h3, h4, hd]
  have hkey : ((randomWalkABC Keys.split Keys.split4 normal' sc').always s { e with iter := e.iter + 1 }).2.key = 0 :: e.key := rfl
  have hal : (randomWalkABC Keys.split Keys.split4 normal sc).always s { e with iter := e.iter + 1 }
      = (randomWalkABC Keys.split Keys.split4 normal' sc').always s { e with iter := e.iter + 1 } := rfl
  unfold update
  dsimp -proj -iota only
  rw [hal]
  rw [hprop _ _ hkey]
  exact metropolis_congr _ _ _ _ _ _ _ _ rfl h2

/-- C22: the key left by a RandomWalkABC update, accepted or not. -/
theorem C22_abc_next (normal : Key → Fin d → ℝ) (uniform : Key → ℝ) (sc : Abc.Scenario Key (Fin d → ℝ) D) (s : State (Payload d D)) (e : Extra Key (Params d)) :
    (update (randomWalkABC Keys.split Keys.split4 normal sc) (metropolis Keys.split uniform) s e).2.key = abcNext e.key := rfl

/-- C22, whole runs of RandomWalkABC. -/
theorem C22_abc_run (n : ℤ) (normal normal' : Key → Fin d → ℝ) (uniform uniform' : Key → ℝ) (sc sc' : Abc.Scenario Key (Fin d → ℝ) D) (hd : sc.distance = sc'.distance)
    (s : State (Payload d D)) (e : Extra Key (Params d))
    (hn : ∀ k, (Use.normal, k) ∈ runUses abcUses abcNext (n - 1 - e.iter).toNat e.key → normal k = normal' k)
    (hu : ∀ k, (Use.uniform, k) ∈ runUses abcUses abcNext (n - 1 - e.iter).toNat e.key → uniform k = uniform' k)
    (hp : ∀ k, (Use.potential, k) ∈ runUses abcUses abcNext (n - 1 - e.iter).toNat e.key → ∀ x, sc.priorPotential x k = sc'.priorPotential x k)
    (hs : ∀ k, (Use.simulate, k) ∈ runUses abcUses abcNext (n - 1 - e.iter).toNat e.key → ∀ x, sc.likelihoodSample x k = sc'.likelihoodSample x k) :
    runFrom (randomWalkABC Keys.split Keys.split4 normal sc) (metropolis Keys.split uniform) n s e
      = runFrom (randomWalkABC Keys.split Keys.split4 normal' sc') (metropolis Keys.split uniform') n s e := by
  rw [C12_mcmc _ _ (keepsIter_randomWalkABC _ _ _ _) (corrKeepsIter_metropolis _ _),
    C12_mcmc _ _ (keepsIter_randomWalkABC _ _ _ _) (corrKeepsIter_metropolis _ _)]
  generalize (n - 1 - (e.iter : ℤ)).toNat = m at *
  refine List.map_congr_left fun i hi => congrArg Prod.fst ?_
  have hi : i ≤ m := by have := List.mem_range.mp hi; omega
  refine bodyIter_agree _ _ abcUses abcNext
    (fun u => (u.1 = .normal → normal u.2 = normal' u.2) ∧ (u.1 = .uniform → uniform u.2 = uniform' u.2) ∧
      (u.1 = .potential → ∀ x, sc.priorPotential x u.2 = sc'.priorPotential x u.2) ∧ (u.1 = .simulate → ∀ x, sc.likelihoodSample x u.2 = sc'.likelihoodSample x u.2)) ?_
    (C22_abc_next _ _ _) i m s e hi ?_
  · intro s e h
    exact C22_abc_uses _ _ _ _ sc sc' hd s e (fun k hk => (h _ hk).1 rfl) (fun k hk => (h _ hk).2.1 rfl)
      (fun k hk => (h _ hk).2.2.1 rfl) (fun k hk => (h _ hk).2.2.2 rfl)
  · rintro ⟨a, k⟩ hmem
    refine ⟨?_, ?_, ?_, ?_⟩ <;> (rintro rfl)
    · exact hn k hmem
    · exact hu k hmem
    · exact hp k hmem
    · exact hs k hmem

/-- Non-vacuity: start-up with a draw from the prior and two updates of RandomWalkABC use 20 keys. -/
example : (withPrior true abcStartupUses [] ++ runUses abcUses abcNext 2 [0, 0, 0]).length = 20 := by decide

end Mocat.Props
