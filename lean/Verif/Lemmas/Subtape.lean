import Verif.Lemmas.TapeMoves
/-! The part of an ideal tape that a program started with a key can read. -/
namespace Mocat.Ideal
open MeasureTheory ProbabilityTheory Mocat.Meas
open scoped ENNReal

/-- The randomness of key `k`: its own array and those of all keys split from it, as a tape. A program that is handed the key `k` is a function of this. -/
def subtape (k : Keys.Key) (ω : Tape) : Tape := fun s => ω (s.1 ++ k, s.2)

theorem measurable_subtape (k : Keys.Key) : Measurable (subtape k) :=
  measurable_pi_lambda _ fun s => measurable_pi_apply (s.1 ++ k, s.2)

theorem subtape_dependsOn (k : Keys.Key) : DependsOn (subtape k) (below k) := by
  intro ω ω' h
  funext s
  exact h _ ⟨s.1, rfl⟩

/-- Every key is as good as the root key. -/
theorem map_subtape (k : Keys.Key) : ideal.map (subtape k) = ideal := by
  have hinj : Function.Injective fun s : Site => ((s.1 ++ k, s.2) : Site) := by
    rintro ⟨a, i⟩ ⟨b, j⟩ h
    simp only [Prod.mk.injEq] at h
    exact Prod.ext (List.append_cancel_right h.1) h.2
  exact Measure.map_infinitePi_infinitePi_of_inj (P := fun _ : Site => unif) hinj

/-- What is read from disjoint parts of the tape is independent. -/
theorem map_pair {α β : Type*} [MeasurableSpace α] [MeasurableSpace β] {S T : Set Site} (h : Disjoint S T) {f : Tape → α} {g : Tape → β}
    (hf : Measurable f) (hg : Measurable g) (hfS : DependsOn f S) (hgT : DependsOn g T) :
    ideal.map (fun ω => (f ω, g ω)) = (ideal.map f).prod (ideal.map g) := by
  have h1 : IndepFun (fun ω => f (only S ω)) (fun ω => g (only T ω)) ideal := (indepFun_only h).comp hf hg
  have h2 : (fun ω => f (only S ω)) = f := funext fun ω => dependsOn_only hfS ω
  have h3 : (fun ω => g (only T ω)) = g := funext fun ω => dependsOn_only hgT ω
  rw [h2, h3] at h1
  exact (indepFun_iff_map_prod_eq_prod_map_map hf.aemeasurable hg.aemeasurable).mp h1

theorem map_site (s : Site) : ideal.map (fun ω : Tape => ω s) = unif :=
  (measurePreserving_eval_infinitePi (fun _ : Site => unif) s).map_eq

theorem normalAt_below (q : ℝ → ℝ) (d : ℕ) (k : Keys.Key) : DependsOn (fun ω => normalAt q d ω k) {s | s.1 = k} := by
  intro ω ω' h
  funext j
  simp only [normalAt]
  rw [h _ rfl]

/-- The law of a normal vector, a whole program's randomness and a uniform, drawn with unrelated keys. -/
theorem map_normal_tape_unif {q : ℝ → ℝ} {d : ℕ} (hq : IsNormalDraw q) {a b c : Keys.Key} (h1 : ∀ i, ((a, i) : Site) ∉ below b) (h2 : a ≠ c) (h3 : ∀ i, ((c, i) : Site) ∉ below b) :
    ideal.map (fun ω => ((normalAt q d ω a, subtape b ω), ω (c, 0))) = ((stdNormal d).prod ideal).prod unif := by
  have e1 : Disjoint {s : Site | s.1 = a} (below b) := by
    rw [Set.disjoint_left]; rintro ⟨k, i⟩ hs; simp only [Set.mem_ofPred_eq] at hs; subst hs; exact h1 i
  have e2 : Disjoint ({s : Site | s.1 = a} ∪ below b) {s : Site | s.1 = c} := by
    rw [Set.disjoint_left]
    rintro ⟨k, i⟩ (hs | hs) hc <;> simp only [Set.mem_ofPred_eq] at hc
    · simp only [Set.mem_ofPred_eq] at hs; exact h2 (hs.symm.trans hc)
    · subst hc; exact h3 i hs
  have m1 : Measurable fun ω => (normalAt q d ω a, subtape b ω) := (measurable_normalAt hq a).prodMk (measurable_subtape b)
  rw [map_pair e2 m1 (measurable_pi_apply ((c, 0) : Site)) ?_ ?_, map_pair e1 (measurable_normalAt hq a) (measurable_subtape b) (normalAt_below q d a) (subtape_dependsOn b),
    map_normalAt hq, map_subtape, map_site]
  · intro ω ω' h
    exact Prod.ext (normalAt_below q d a fun s hs => h s (Or.inl hs)) (subtape_dependsOn b fun s hs => h s (Or.inr hs))
  · intro ω ω' h
    exact h _ rfl

/-- Functions of disjoint parts of the tape are independent. -/
theorem iIndepFun_of_dependsOn {ι : Type*} {β : ι → Type*} [∀ i, MeasurableSpace (β i)] {S : ι → Set Site} (hS : ∀ a b, a ≠ b → Disjoint (S a) (S b)) {f : ∀ i, Tape → β i}
    (hf : ∀ i, Measurable (f i)) (hfS : ∀ i, DependsOn (f i) (S i)) : iIndepFun f ideal := by
  rw [iIndepFun_iff_measure_inter_preimage_eq_mul]
  intro I A hA
  refine biInter I (S := S) (fun a _ b _ h => hS a b h) (fun a ha => hf a (hA a ha)) fun a _ ω ω' h => ?_
  have := hfS a h
  simp only [Set.mem_preimage, this]

/-- Functions of disjoint parts of the tape: joint law. -/
theorem map_pi {ι : Type*} [Fintype ι] {β : ι → Type*} [∀ i, MeasurableSpace (β i)] {S : ι → Set Site} (hS : ∀ a b, a ≠ b → Disjoint (S a) (S b)) {f : ∀ i, Tape → β i}
    (hf : ∀ i, Measurable (f i)) (hfS : ∀ i, DependsOn (f i) (S i)) : ideal.map (fun ω i => f i ω) = Measure.pi fun i => ideal.map (f i) :=
  (iIndepFun_iff_map_fun_eq_pi_map fun i => (hf i).aemeasurable).mp (iIndepFun_of_dependsOn hS hf hfS)

end Mocat.Ideal
