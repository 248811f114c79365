import Verif.Spec.Tape
/-! Independence of what is read from disjoint parts of an ideal tape. -/
namespace Mocat.Ideal
open MeasureTheory ProbabilityTheory Mocat.Meas
open scoped ENNReal

/-- The tape with everything outside `S` blanked. -/
noncomputable def only (S : Set Site) (ω : Tape) : Tape := open Classical in fun s => if s ∈ S then ω s else 0

theorem only_apply {S : Set Site} {s : Site} (h : s ∈ S) (ω : Tape) : only S ω s = ω s := if_pos h

theorem dependsOn_only {β : Type*} {f : Tape → β} {S : Set Site} (h : DependsOn f S) (ω : Tape) : f (only S ω) = f ω :=
  h fun _ hs => only_apply hs ω

theorem measurable_only' (S : Set Site) : @Measurable _ _ (⨆ s ∈ S, MeasurableSpace.comap (fun ω : Tape => ω s) inferInstance) _ (only S) := by
  refine @measurable_pi_lambda _ _ _ (_) _ _ fun s => ?_
  by_cases hs : s ∈ S
  · have : (fun ω => only S ω s) = fun ω : Tape => ω s := funext fun ω => only_apply hs ω
    rw [this]
    have h1 : @Measurable _ _ (MeasurableSpace.comap (fun ω : Tape => ω s) inferInstance) _ fun ω : Tape => ω s := comap_measurable _
    exact h1.mono (le_iSup₂_of_le s hs le_rfl) le_rfl
  · have : (fun ω => only S ω s) = fun _ : Tape => (0 : ℝ) := funext fun ω => if_neg hs
    rw [this]
    exact @measurable_const _ _ (_) (_) 0

theorem measurable_only (S : Set Site) : Measurable (only S) :=
  (measurable_only' S).mono (iSup₂_le fun s _ => (measurable_pi_apply s).comap_le) le_rfl

theorem indepFun_only {S T : Set Site} (h : Disjoint S T) : IndepFun (only S) (only T) ideal := by
  have h1 : iIndepFun (fun (s : Site) (ω : Tape) => ω s) ideal := iIndepFun_infinitePi (X := fun _ x => x) fun _ => measurable_id
  rw [iIndepFun_iff_iIndep] at h1
  have h2 := indep_iSup_of_disjoint (fun s => (measurable_pi_apply s).comap_le) h1 h
  rw [IndepFun_iff_Indep]
  exact indep_of_indep_of_le_left (indep_of_indep_of_le_right h2 (measurable_only' T).comap_le) (measurable_only' S).comap_le

/-- Fubini for a tape: what reads only `T` can be averaged with a fresh tape after what reads only `S`. -/
theorem fresh {α : Type*} [MeasurableSpace α] {S T : Set Site} (hST : Disjoint S T) {f : Tape → α} (hf : Measurable f) (hfS : DependsOn f S)
    {g : α → Tape → ℝ≥0∞} (hg : Measurable (Function.uncurry g)) (hgT : ∀ a, DependsOn (g a) T) :
    ∫⁻ ω, g (f ω) ω ∂ideal = ∫⁻ ω, ∫⁻ ω', g (f ω) ω' ∂ideal ∂ideal := by
  have hpair := (indepFun_iff_map_prod_eq_prod_map_map (measurable_only S).aemeasurable (measurable_only T).aemeasurable).mp (indepFun_only hST)
  have hh : Measurable fun z : Tape × Tape => g (f z.1) z.2 := hg.comp ((hf.comp measurable_fst).prodMk measurable_snd)
  have e1 : ∫⁻ ω, g (f ω) ω ∂ideal = ∫⁻ z, g (f z.1) z.2 ∂(ideal.map fun ω => (only S ω, only T ω)) := by
    rw [lintegral_map hh ((measurable_only S).prodMk (measurable_only T))]
    refine lintegral_congr fun ω => ?_
    simp only
    rw [dependsOn_only hfS, dependsOn_only (hgT _)]
  have : IsProbabilityMeasure (ideal.map (only T)) := Measure.isProbabilityMeasure_map (measurable_only T).aemeasurable
  rw [e1, hpair, lintegral_prod _ hh.aemeasurable, lintegral_map (Measurable.lintegral_prod_right' hh) (measurable_only S)]
  refine lintegral_congr fun ω => ?_
  have hc : Measurable fun y : Tape => g (f (only S ω)) y := hg.comp measurable_prodMk_left
  simp only
  rw [lintegral_map hc (measurable_only T)]
  refine lintegral_congr fun ω' => ?_
  rw [dependsOn_only hfS, dependsOn_only (hgT _)]

/-- Events read from disjoint parts of the tape are independent. -/
theorem inter {S T : Set Site} (hST : Disjoint S T) {A B : Set Tape} (hA : MeasurableSet A) (hB : MeasurableSet B)
    (hAS : DependsOn (· ∈ A) S) (hBT : DependsOn (· ∈ B) T) : ideal (A ∩ B) = ideal A * ideal B := by
  have hA' : only S ⁻¹' A = A := by
    ext ω; exact iff_of_eq (dependsOn_only hAS ω)
  have hB' : only T ⁻¹' B = B := by
    ext ω; exact iff_of_eq (dependsOn_only hBT ω)
  have := (indepFun_iff_measure_inter_preimage_eq_mul.mp (indepFun_only hST)) A B hA hB
  rwa [hA', hB'] at this

/-- The same for finitely many events. -/
theorem biInter {ι : Type*} (I : Finset ι) {S : ι → Set Site} (hS : ∀ a ∈ I, ∀ b ∈ I, a ≠ b → Disjoint (S a) (S b)) {A : ι → Set Tape}
    (hA : ∀ a ∈ I, MeasurableSet (A a)) (hAS : ∀ a ∈ I, DependsOn (· ∈ A a) (S a)) : ideal (⋂ a ∈ I, A a) = ∏ a ∈ I, ideal (A a) := by
  classical
  induction I using Finset.induction_on with
  | empty => simp
  | insert a I ha ih =>
    rw [Finset.set_biInter_insert, Finset.prod_insert ha, inter (S := S a) (T := ⋃ b ∈ I, S b), ih]
    · exact fun b hb c hc => hS b (Finset.mem_insert_of_mem hb) c (Finset.mem_insert_of_mem hc)
    · exact fun b hb => hA b (Finset.mem_insert_of_mem hb)
    · exact fun b hb => hAS b (Finset.mem_insert_of_mem hb)
    · rw [Set.disjoint_iUnion₂_right]
      intro b hb
      exact hS a (Finset.mem_insert_self _ _) b (Finset.mem_insert_of_mem hb) (fun h => ha (h ▸ hb))
    · exact hA a (Finset.mem_insert_self _ _)
    · exact Finset.measurableSet_biInter I fun b hb => hA b (Finset.mem_insert_of_mem hb)
    · exact hAS a (Finset.mem_insert_self _ _)
    · intro x y hxy
      simp only [Set.mem_iInter]
      refine propext (forall₂_congr fun b hb => iff_of_eq (hAS b (Finset.mem_insert_of_mem hb) fun s hs => hxy s ?_))
      exact Set.mem_iUnion₂.mpr ⟨b, hb, hs⟩

/-- The law of one position. -/
theorem site (s : Site) {A : Set ℝ} (hA : MeasurableSet A) : ideal {ω | ω s ∈ A} = unif A := by
  have := (measurePreserving_eval_infinitePi (fun _ : Site => unif) s).measure_preimage hA.nullMeasurableSet
  exact this

/-- The positions under a key and the keys split from it. -/
def below (k : Keys.Key) : Set Site := {s | ∃ p : List ℕ, s.1 = p ++ k}

theorem mem_below_cons {k : Keys.Key} {a : ℕ} {s : Site} (h : s ∈ below (a :: k)) : s ∈ below k := by
  obtain ⟨p, hp⟩ := h
  exact ⟨p ++ [a], by rw [hp]; simp⟩

theorem below_cons_ne {k : Keys.Key} {a b : ℕ} {n : ℕ} (h : a ≠ b) : ((a :: k, n) : Site) ∉ below (b :: k) := by
  rintro ⟨p, hp⟩
  simp only at hp
  cases p with
  | nil => simp at hp; exact h hp
  | cons c p =>
    have := congrArg List.length hp
    simp at this
    omega

theorem below_disjoint {k : Keys.Key} {a b : ℕ} (h : a ≠ b) : Disjoint (below (a :: k)) (below (b :: k)) := by
  rw [Set.disjoint_left]
  rintro s ⟨p, hp⟩ ⟨q, hq⟩
  rw [hp] at hq
  have := (List.append_inj' hq rfl).2
  simp at this
  exact h this

end Mocat.Ideal
