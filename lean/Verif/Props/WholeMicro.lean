import Verif.Model.WholeMicro
import Verif.Props.WholeGradient
import Verif.Props.SecondChoiceDeriv
import Verif.Props.Moments

set_option linter.unusedSectionVars false

/-!
# C118: micro moments in the objective
-/

namespace Pyblp

open Matrix Filter Topology

/-! ## Lists of results -/

section lists

variable {α β P Q : Type}

lemma gather_map (f : α → Except PyErr β) (g : α → β) : ∀ l : List α, (∀ a ∈ l, f a = .ok (g a)) → gather f l = .ok (l.map g)
  | [], _ => rfl
  | a :: l, h => by
    unfold gather
    rw [h a List.mem_cons_self, gather_map f g l fun b hb => h b (List.mem_cons_of_mem _ hb)]
    rfl

/-- If all results are there, each is. -/
lemma gather_inv (f : α → Except PyErr β) : ∀ (l : List α) (bs : List β), gather f l = .ok bs → ∀ a ∈ l, ∃ b, f a = .ok b
  | [], _, _, a, ha => by cases ha
  | x :: l, bs, h, a, ha => by
    unfold gather at h
    cases hx : f x with
    | error e => simp [hx] at h
    | ok b =>
      simp only [hx] at h
      cases hl : gather f l with
      | error e => simp [hl] at h
      | ok bs' =>
        rcases List.mem_cons.mp ha with rfl | ha
        · exact ⟨b, hx⟩
        · exact gather_inv f l bs' hl a ha

lemma addContributions_foldl (l : List (PartContribution P Q)) (x : PartContribution P Q) :
    (l.foldl PartContribution.add x).numerator = x.numerator + (l.map (·.numerator)).sum ∧
    (l.foldl PartContribution.add x).denominator = x.denominator + (l.map (·.denominator)).sum ∧
    (∀ q, (l.foldl PartContribution.add x).numeratorJacobian q = x.numeratorJacobian q + (l.map (·.numeratorJacobian q)).sum) ∧
    ∀ q, (l.foldl PartContribution.add x).denominatorJacobian q = x.denominatorJacobian q + (l.map (·.denominatorJacobian q)).sum := by
  induction l generalizing x with
  | nil => simp
  | cons a l ih =>
    obtain ⟨h1, h2, h3, h4⟩ := ih (x.add a)
    simp only [List.foldl_cons, List.map_cons, List.sum_cons]
    refine ⟨h1.trans ?_, h2.trans ?_, fun q => (h3 q).trans ?_, fun q => (h4 q).trans ?_⟩ <;> simp only [PartContribution.add] <;> ring

lemma hasDerivAt_list_sum (l : List α) (f : ℝ → α → ℝ) (f' : α → ℝ) (x : ℝ) (h : ∀ a ∈ l, HasDerivAt (fun t => f t a) (f' a) x) :
    HasDerivAt (fun t => (l.map (f t)).sum) (l.map f').sum x := by
  induction l with
  | nil => simpa using hasDerivAt_const x (0 : ℝ)
  | cons a l ih =>
    simp only [List.map_cons, List.sum_cons]
    exact (h a List.mem_cons_self).fun_add (ih fun b hb => h b (List.mem_cons_of_mem _ hb))

end lists

/-! ## Contributions of a market -/

section market

variable {R S C Ds Part Q : Type}

lemma otherValues_congr (mm mm' : MicroMarket R S C Ds Q) (u : MicroFunctions R S C Ds Part) (dataset : Part → Ds) (shape : S)
    (indices : List ℕ) (d : Ds) (hrow : mm'.row = mm.row) (l : List Part) :
    otherValues mm' u dataset shape indices d l = otherValues mm u dataset shape indices d l := by
  induction l with
  | nil => rfl
  | cons p l ih =>
    unfold otherValues computeMicroValues
    rw [ih, hrow]

open Classical in
/-- The contribution of a market in which a dataset is observed, and what it would be if probabilities and derivatives were others. -/
lemma partContribution_split (mm : MicroMarket R S C Ds Q) (u : MicroFunctions R S C Ds Part) (dataset : Part → Ds) (earlier : List Part)
    (p : Part) (indices : List ℕ) (hinc : mm.included (dataset p) = true) (x : PartContribution Part Q)
    (h : partContribution mm u dataset earlier p indices = .ok x) :
    ∃ (w v : UserArray S C), w.rows.length = indices.length ∧ v.rows.length = indices.length ∧
      (∀ r ∈ w.rows, ∀ c ∈ mm.cells w.shape, 0 ≤ r c) ∧
      ∀ mm' : MicroMarket R S C Ds Q, mm'.row = mm.row → mm'.cells = mm.cells → mm'.included = mm.included →
        ∃ (chunk : DatasetChunk S C Q) (x' : PartContribution Part Q), datasetContributions mm' u (dataset p) indices = .ok chunk ∧
          partContribution mm' u dataset earlier p indices = .ok x' ∧
          x'.numerator = sumRows (mm.cells w.shape)
            (mulRows (List.zipWith (fun i r c => max (r c * mm'.factor (dataset p) i c) 0) indices w.rows) v.rows) ∧
          (∀ q, x'.numeratorJacobian q = sumRows (mm.cells w.shape)
            (mulRows (List.zipWith (fun i r c => r c * mm'.tangent (dataset p) q i c) indices w.rows) v.rows)) ∧
          x'.denominator = chunk.denominator ∧ x'.denominatorJacobian = chunk.denominatorTangent := by
  unfold partContribution at h
  rw [if_neg (by simp [hinc])] at h
  cases hd : datasetContributions mm u (dataset p) indices with
  | error e => simp [hd] at h
  | ok chunk =>
    simp only [hd] at h
    obtain ⟨w, hu, hlen, hneg, rfl⟩ := datasetContributions_ok hd
    simp only at h
    cases hv : computeMicroValues mm u p w.shape indices with
    | error e => simp [hv] at h
    | ok v =>
      simp only [hv] at h
      cases ho : otherValues mm u dataset w.shape indices (dataset p) earlier with
      | error e => simp [ho] at h
      | ok others =>
        have hvlen : v.rows.length = indices.length := by
          unfold computeMicroValues at hv
          cases hv' : u.values p (indices.map mm.row) with
          | none => simp [hv'] at hv
          | some v' =>
            simp only [hv'] at hv
            split_ifs at hv with hbad
            cases hv
            push Not at hbad
            exact hbad.1
        refine ⟨w, v, hlen, hvlen, hneg, fun mm' hrow hcells hincl => ?_⟩
        have hd' := datasetContributions_of mm' u (dataset p) indices w (by rw [hrow]; exact hu) hlen (by rw [hcells]; exact hneg)
        have hv'' : computeMicroValues mm' u p w.shape indices = .ok v := by
          rw [← hv]
          unfold computeMicroValues
          rw [hrow]
        have ho' : otherValues mm' u dataset w.shape indices (dataset p) earlier = .ok others := by
          rw [otherValues_congr mm mm' u dataset w.shape indices _ hrow]
          exact ho
        refine ⟨_, {
          numerator := sumRows (mm'.cells w.shape)
            (mulRows (List.zipWith (fun i r c => max (r c * mm'.factor (dataset p) i c) 0) indices w.rows) v.rows)
          denominator := _
          numeratorJacobian := fun q => sumRows (mm'.cells w.shape)
            (mulRows (List.zipWith (fun i r c => r c * mm'.tangent (dataset p) q i c) indices w.rows) v.rows)
          denominatorJacobian := _
          covariances := fun p2 => ((others.filter fun o => decide (o.1 = p2)).map fun o => sumRows (mm'.cells w.shape)
            (mulRows (mulRows (List.zipWith (fun i r c => max (r c * mm'.factor (dataset p) i c) 0) indices w.rows) v.rows) o.2)).sum },
          hd', ?_, by rw [hcells], fun q => by rw [hcells], rfl, rfl⟩
        unfold partContribution
        rw [if_neg (by simp [hincl, hinc]), hd']
        simp only [hv'', ho']

lemma mulRows_zipWith {X : Type} (f : ℕ → X → C → ℝ) (indices : List ℕ) (rows : List X) (v : List (C → ℝ)) :
    mulRows (List.zipWith f indices rows) v = List.zipWith (fun i (r : X × (C → ℝ)) c => f i r.1 c * r.2 c) indices (rows.zip v) := by
  unfold mulRows
  induction indices generalizing rows v with
  | nil => simp
  | cons i indices ih =>
    cases rows with
    | nil => simp
    | cons r rows =>
      cases v with
      | nil => simp
      | cons a v => simp [ih rows v]

lemma microContributions_one (mm : MicroMarket R S C Ds Q) (u : MicroFunctions R S C Ds Part) (dataset : Part → Ds) (earlier : List Part)
    (p : Part) : microContributions mm u dataset earlier p 1 =
      match partContribution mm u dataset earlier p (List.range mm.I) with
      | .error e => .error e
      | .ok x => .ok (PartContribution.zero.add x) := by
  unfold microContributions generateChunks
  rw [if_neg (by norm_num), if_neg (by norm_num)]
  show loopChunks mm u dataset earlier p PartContribution.zero [List.range mm.I] = _
  rw [loopChunks]
  cases partContribution mm u dataset earlier p (List.range mm.I) with
  | error e => rfl
  | ok x => simp only [loopChunks]

end market

section panel

variable {n : ℕ} {M : Type} {J A : M → Type} {G K1 K2 K3 N D θ B Ds Part K : Type} [∀ t, Fintype (J t)] [∀ t, DecidableEq (J t)]
  [∀ t, Nonempty (J t)] [∀ t, Fintype (A t)] [Fintype G] [DecidableEq G] [Fintype K1] [DecidableEq K1] [Fintype K2] [DecidableEq K2]
  [Fintype K3] [DecidableEq K3] [Fintype N] [DecidableEq N] [Fintype D] [DecidableEq D] [DecidableEq θ]
  [DecidableEq B] [DecidableEq Part] [DecidableEq Ds] [DecidableEq K]

namespace Spec

/-- What is assumed about micro data: each agent of a market is listed once and is offered something, and no dataset of a part has product
IDs by which first choices are eliminated. -/
structure ProperMicro (P : PanelProblem n M J A G K1 K2 K3 N D θ) (Q : PanelMicro M J A B Ds Part K) : Prop where
  agents : ∀ t, (((List.range (Q.count t)).map (Q.agent t) : List (A t)) : Multiset (A t)) = Finset.univ.val
  offered : ∀ t i, ∃ j, Offered (P.market t) {} i j
  ids : ∀ t part, Q.ids t (Q.config.dataset part) = none

end Spec

variable (P : PanelProblem n M J A G K1 K2 K3 N D θ) (Q : PanelMicro M J A B Ds Part K) (theta : θ → ℝ)
  (delta : (θ → ℝ) → (t : M) → J t → ℝ) (inverse : (θ → ℝ) → (t : M) → J t → J t → ℝ)

lemma microMarketAt_eq (t : M) (d : J t → ℝ) (inv : J t → J t → ℝ) : P.microMarketAt Q theta t d inv =
    observedMarket (P.marketAt theta t) (P.tastes t) (P.sigmaAt theta) (P.piAt theta) d
      (fun p => ((P.param p).tangent (P.X1 t) (P.X3 t) : TangentParam (J t) G K2 N D)) inv (Q.count t) (Q.agent t) (Q.included t)
      (Q.ids t) := rfl

lemma microMarketAt_I (t : M) (d : J t → ℝ) (inv : J t → J t → ℝ) : (P.microMarketAt Q theta t d inv).I = Q.count t := rfl

lemma microMarketAt_row (t : M) (d : J t → ℝ) (inv : J t → J t → ℝ) : (P.microMarketAt Q theta t d inv).row = Q.agent t := rfl

lemma microMarketAt_cells (t : M) (d : J t → ℝ) (inv : J t → J t → ℝ) : (P.microMarketAt Q theta t d inv).cells = MicroShape.cells := rfl

lemma microMarketAt_included (t : M) (d : J t → ℝ) (inv : J t → J t → ℝ) :
    (P.microMarketAt Q theta t d inv).included = Q.included t := rfl

/-- Probabilities after a parameter has changed. -/
lemma factor_path (p : θ) (hP : Spec.ProperPanel P theta p) (t : M) (inv inv' : J t → J t → ℝ) (s : ℝ) :
    (P.microMarketAt Q (Function.update theta p (theta p + s)) t (delta (Function.update theta p (theta p + s)) t) inv').factor =
      (Spec.movedMarket (P.marketAt theta t) (P.tastes t) (P.sigmaAt theta) (P.piAt theta)
        (fun p => ((P.param p).tangent (P.X1 t) (P.X3 t) : TangentParam (J t) G K2 N D)) inv (Q.count t) (Q.agent t) (Q.included t)
        (Q.ids t) ((P.param p).tangent (P.X1 t) (P.X3 t)) s (P.deltaPath theta p delta t s)).factor := by
  rw [microMarketAt_eq]
  unfold Spec.movedMarket
  rw [shiftDelta_path P theta p hP delta, marketAt_update P hP.distinct theta p _ t, sigmaAt_update P hP.distinct theta p _ t,
    piAt_update P hP.distinct theta p _ t, add_sub_cancel_left]
  rfl

lemma numerator_derivative (hQ : Spec.ProperMicro P Q) (p : θ) (hP : Spec.ProperPanel P theta p)
    (hinv : Spec.InvertsShares P theta (delta theta) (inverse theta)) (t : M)
    (hsolve : SolvesNear (P.marketAt theta t) (P.tastes t) (P.sigmaAt theta) (P.piAt theta) true (delta theta t)
      ((P.param p).tangent (P.X1 t) (P.X3 t)) (P.deltaPath theta p delta t)) (part : Part) (w v : List (MicroCell (J t) → ℝ))
    (cells : Finset (MicroCell (J t))) (indices : List ℕ) (hneg : ∀ r ∈ w, ∀ c ∈ cells, 0 ≤ r c) (y : (θ → ℝ) → ℝ)
    (hy : ∀ theta', y theta' = sumRows cells (mulRows (List.zipWith (fun i r c => max (r c *
      (P.microMarketAt Q theta' t (delta theta' t) (inverse theta' t)).factor (Q.config.dataset part) i c) 0) indices w) v)) (y' : ℝ)
    (hy' : y' = sumRows cells (mulRows (List.zipWith (fun i r c => r c *
      (P.microMarketAt Q theta t (delta theta t) (inverse theta t)).tangent (Q.config.dataset part) p i c) indices w) v)) :
    HasDerivAt (fun s => y (Function.update theta p s)) y' (theta p) := by
  refine hasDerivAt_of_increase _ _ _ ?_
  rw [hy']
  simp only [hy, factor_path P Q theta delta p hP t (inverse theta t), mulRows_zipWith]
  refine hasDerivAt_sumRows _ _ _ _ (fun i r hr c hc => ?_) _
  have h1 := hasDerivAt_contribution (P.marketAt theta t) (hP.market t) (P.tastes t) (P.sigmaAt theta) (P.piAt theta) (delta theta t)
    (fun p => ((P.param p).tangent (P.X1 t) (P.X3 t) : TangentParam (J t) G K2 N D)) p (hP.fits t) (hP.weights t) (hP.offered t)
    (hQ.offered t) (hP.interior t) (inverse theta t) (hinv t) _ hsolve (Q.count t) (Q.agent t) (Q.included t) (Q.ids t)
    (Q.config.dataset part) (hQ.ids t part) i r.1 c (hneg r.1 (List.of_mem_zip hr).1 c hc)
  exact h1.mul_const (r.2 c)

lemma denominator_derivative (hQ : Spec.ProperMicro P Q) (p : θ) (hP : Spec.ProperPanel P theta p)
    (hinv : Spec.InvertsShares P theta (delta theta) (inverse theta)) (t : M)
    (hsolve : SolvesNear (P.marketAt theta t) (P.tastes t) (P.sigmaAt theta) (P.piAt theta) true (delta theta t)
      ((P.param p).tangent (P.X1 t) (P.X3 t)) (P.deltaPath theta p delta t)) (part : Part)
    (chunk : (θ → ℝ) → DatasetChunk MicroShape (MicroCell (J t)) θ)
    (hchunk : ∀ theta', datasetContributions (P.microMarketAt Q theta' t (delta theta' t) (inverse theta' t)) (Q.functions t)
      (Q.config.dataset part) (List.range (Q.count t)) = .ok (chunk theta')) (y : (θ → ℝ) → ℝ)
    (hy : ∀ theta', y theta' = (chunk theta').denominator) (y' : θ → ℝ) (hy' : y' = (chunk theta).denominatorTangent) :
    HasDerivAt (fun s => y (Function.update theta p s)) (y' p) (theta p) := by
  refine hasDerivAt_of_increase _ _ _ ?_
  rw [hy']
  have h1 := hchunk theta
  rw [microMarketAt_eq] at h1
  obtain ⟨moved, hmoved, hder⟩ := C82_denominator_partial (P.marketAt theta t) (hP.market t) (P.tastes t) (P.sigmaAt theta)
    (P.piAt theta) (delta theta t) (fun p => ((P.param p).tangent (P.X1 t) (P.X3 t) : TangentParam (J t) G K2 N D)) p (hP.fits t)
    (hP.weights t) (hP.offered t) (hQ.offered t) (hP.interior t) (inverse theta t) (hinv t) _ hsolve (Q.count t) (Q.agent t)
    (Q.included t) (Q.ids t) (Q.functions t) (Q.config.dataset part) (hQ.ids t part) _ (hQ.agents t) _ h1
  refine hder.congr_of_eventuallyEq (Eventually.of_forall fun s => ?_)
  simp only [hy]
  obtain ⟨w1, hu1, hl1, hn1, he1⟩ := datasetContributions_ok (hchunk (Function.update theta p (theta p + s)))
  obtain ⟨w2, hu2, hl2, hn2, he2⟩ := datasetContributions_ok (hmoved s)
  rw [microMarketAt_row] at hu1
  rw [movedMarket_row] at hu2
  have hww : w1 = w2 := Option.some.inj (hu1.symm.trans hu2)
  subst hww
  rw [he1, he2]
  simp only [factor_path P Q theta delta p hP t (inverse theta t), microMarketAt_cells, movedMarket_cells]

/-- What a market contributes to a part, as a function of parameters. -/
lemma market_part (hQ : Spec.ProperMicro P Q) (t : M) (part : Part) (earlier : List Part) (x : PartContribution Part θ)
    (h : microContributions (P.microMarketAt Q theta t (delta theta t) (inverse theta t)) (Q.functions t) Q.config.dataset earlier part 1 =
      .ok x) :
    ∃ y : (θ → ℝ) → PartContribution Part θ,
      (∀ theta', microContributions (P.microMarketAt Q theta' t (delta theta' t) (inverse theta' t)) (Q.functions t) Q.config.dataset earlier
        part 1 = .ok (y theta')) ∧
      ∀ p, Spec.ProperPanel P theta p →
        (∀ᶠ s in 𝓝 (theta p), Spec.Explained P (Function.update theta p s) (delta (Function.update theta p s))) →
        Spec.InvertsShares P theta (delta theta) (inverse theta) →
        HasDerivAt (fun s => (y (Function.update theta p s)).numerator) (x.numeratorJacobian p) (theta p) ∧
        HasDerivAt (fun s => (y (Function.update theta p s)).denominator) (x.denominatorJacobian p) (theta p) := by
  rw [microContributions_one, microMarketAt_I] at h
  simp only [microContributions_one, microMarketAt_I]
  cases hx : partContribution (P.microMarketAt Q theta t (delta theta t) (inverse theta t)) (Q.functions t) Q.config.dataset earlier part
      (List.range (Q.count t)) with
  | error e => simp [hx] at h
  | ok x0 =>
    simp only [hx, Except.ok.injEq] at h
    subst h
    cases hinc : Q.included t (Q.config.dataset part) with
    | false =>
      have hz : ∀ theta', partContribution (P.microMarketAt Q theta' t (delta theta' t) (inverse theta' t)) (Q.functions t)
          Q.config.dataset earlier part (List.range (Q.count t)) = .ok PartContribution.zero := fun theta' => by
        unfold partContribution
        rw [if_pos (by rw [microMarketAt_included]; exact hinc)]
      rw [hz] at hx
      cases hx
      refine ⟨fun _ => PartContribution.zero.add PartContribution.zero, fun theta' => by rw [hz], fun p _ _ _ => ?_⟩
      simp only [PartContribution.add, PartContribution.zero, add_zero]
      exact ⟨hasDerivAt_const _ _, hasDerivAt_const _ _⟩
    | true =>
      obtain ⟨w, v, hw, hv, hneg, hall⟩ := partContribution_split _ _ _ _ _ _ (by rw [microMarketAt_included]; exact hinc) _ hx
      have hall' := fun theta' => hall (P.microMarketAt Q theta' t (delta theta' t) (inverse theta' t))
        (by rw [microMarketAt_row, microMarketAt_row]) (by rw [microMarketAt_cells, microMarketAt_cells])
        (by rw [microMarketAt_included, microMarketAt_included])
      choose chunk y hchunk hy hnum hnumJ hden hdenJ using hall'
      refine ⟨fun theta' => PartContribution.zero.add (y theta'), fun theta' => by rw [hy], fun p hP hdelta hinv => ?_⟩
      have hx0 : x0 = y theta := by
        have := hy theta
        rw [hx] at this
        exact Except.ok.inj this
      subst hx0
      simp only [PartContribution.add, PartContribution.zero, zero_add]
      have hsolve := solves_path P theta p hP delta hdelta t
      constructor
      · exact numerator_derivative P Q theta delta inverse hQ p hP hinv t hsolve _ w.rows v.rows _ _ hneg _ hnum _ (hnumJ theta p)
      · exact denominator_derivative P Q theta delta inverse hQ p hP hinv t hsolve _ chunk hchunk _ hden _ (hdenJ theta)

/-- What all markets contribute to a part, as a function of parameters. -/
lemma total_part (hQ : Spec.ProperMicro P Q) (markets : List M) (parts : List Part) (part : Part) (x : PartContribution Part θ)
    (h : P.partAt Q markets parts theta (delta theta) (inverse theta) part = .ok x) :
    ∃ y : (θ → ℝ) → PartContribution Part θ,
      (∀ theta', P.partAt Q markets parts theta' (delta theta') (inverse theta') part = .ok (y theta')) ∧
      ∀ p, Spec.ProperPanel P theta p →
        (∀ᶠ s in 𝓝 (theta p), Spec.Explained P (Function.update theta p s) (delta (Function.update theta p s))) →
        Spec.InvertsShares P theta (delta theta) (inverse theta) →
        HasDerivAt (fun s => (y (Function.update theta p s)).numerator) (x.numeratorJacobian p) (theta p) ∧
        HasDerivAt (fun s => (y (Function.update theta p s)).denominator) (x.denominatorJacobian p) (theta p) := by
  classical
  unfold PanelProblem.partAt at h
  cases hg : gather (fun t => microContributions (P.microMarketAt Q theta t (delta theta t) (inverse theta t)) (Q.functions t)
      Q.config.dataset (parts.take (parts.idxOf part + 1)) part 1) markets with
  | error e => simp [hg] at h
  | ok l =>
    simp only [hg, Except.ok.injEq] at h
    have hm : ∀ t ∈ markets, ∃ b, microContributions (P.microMarketAt Q theta t (delta theta t) (inverse theta t)) (Q.functions t)
        Q.config.dataset (parts.take (parts.idxOf part + 1)) part 1 = .ok b := gather_inv _ _ _ hg
    have hy : ∀ t, ∃ (b : PartContribution Part θ) (y : (θ → ℝ) → PartContribution Part θ), t ∈ markets →
        microContributions (P.microMarketAt Q theta t (delta theta t) (inverse theta t)) (Q.functions t)
          Q.config.dataset (parts.take (parts.idxOf part + 1)) part 1 = .ok b ∧
        (∀ theta', microContributions (P.microMarketAt Q theta' t (delta theta' t) (inverse theta' t)) (Q.functions t) Q.config.dataset
          (parts.take (parts.idxOf part + 1)) part 1 = .ok (y theta')) ∧
        ∀ p, Spec.ProperPanel P theta p →
          (∀ᶠ s in 𝓝 (theta p), Spec.Explained P (Function.update theta p s) (delta (Function.update theta p s))) →
          Spec.InvertsShares P theta (delta theta) (inverse theta) →
          HasDerivAt (fun s => (y (Function.update theta p s)).numerator) (b.numeratorJacobian p) (theta p) ∧
          HasDerivAt (fun s => (y (Function.update theta p s)).denominator) (b.denominatorJacobian p) (theta p) := fun t => by
      by_cases ht : t ∈ markets
      · obtain ⟨b, hb⟩ := hm t ht
        obtain ⟨y, h1, h2⟩ := market_part P Q theta delta inverse hQ t part _ b hb
        exact ⟨b, y, fun _ => ⟨hb, h1, h2⟩⟩
      · exact ⟨PartContribution.zero, fun _ => PartContribution.zero, fun h => absurd h ht⟩
    choose b y hby using hy
    have hl := gather_map _ b markets fun t ht => (hby t ht).1
    rw [hg] at hl
    cases hl
    subst h
    refine ⟨fun theta' => addContributions (markets.map fun t => y t theta'), fun theta' => ?_, fun p hP hdelta hinv => ?_⟩
    · unfold PanelProblem.partAt
      rw [gather_map _ (fun t => y t theta') markets fun t ht => (hby t ht).2.1 theta']
    · unfold addContributions
      obtain ⟨-, -, h3, h4⟩ := addContributions_foldl (markets.map b) PartContribution.zero
      have h1 := fun s => (addContributions_foldl (markets.map fun t => y t (Function.update theta p s)) PartContribution.zero).1
      have h2 := fun s => (addContributions_foldl (markets.map fun t => y t (Function.update theta p s)) PartContribution.zero).2.1
      simp only [h1, h2, h3, h4, List.map_map]
      simp only [PartContribution.zero, zero_add]
      exact ⟨hasDerivAt_list_sum markets (fun s t => (y t (Function.update theta p s)).numerator) (fun t => (b t).numeratorJacobian p) _
          fun t ht => ((hby t ht).2.2 p hP hdelta hinv).1,
        hasDerivAt_list_sum markets (fun s t => (y t (Function.update theta p s)).denominator) (fun t => (b t).denominatorJacobian p) _
          fun t ht => ((hby t ht).2.2 p hP hdelta hinv).2⟩

/-- What is contributed to all parts, as a function of parameters. -/
lemma total_parts (hQ : Spec.ProperMicro P Q) (markets : List M) (parts : List Part) (x : List (PartContribution Part θ)) (h : P.partsAt Q markets parts theta (delta theta) (inverse theta) = .ok x) :
    ∃ (b : Part → PartContribution Part θ) (y : (θ → ℝ) → Part → PartContribution Part θ), x = parts.map b ∧
      (∀ theta', P.partsAt Q markets parts theta' (delta theta') (inverse theta') = .ok (parts.map (y theta'))) ∧
      ∀ p, Spec.ProperPanel P theta p →
        (∀ᶠ s in 𝓝 (theta p), Spec.Explained P (Function.update theta p s) (delta (Function.update theta p s))) →
        Spec.InvertsShares P theta (delta theta) (inverse theta) → ∀ part ∈ parts,
        HasDerivAt (fun s => (y (Function.update theta p s) part).numerator) ((b part).numeratorJacobian p) (theta p) ∧
        HasDerivAt (fun s => (y (Function.update theta p s) part).denominator) ((b part).denominatorJacobian p) (theta p) := by
  classical
  unfold PanelProblem.partsAt at h
  have hy : ∀ part, ∃ (b : PartContribution Part θ) (y : (θ → ℝ) → PartContribution Part θ), part ∈ parts →
      P.partAt Q markets parts theta (delta theta) (inverse theta) part = .ok b ∧
      (∀ theta', P.partAt Q markets parts theta' (delta theta') (inverse theta') part = .ok (y theta')) ∧
      ∀ p, Spec.ProperPanel P theta p →
        (∀ᶠ s in 𝓝 (theta p), Spec.Explained P (Function.update theta p s) (delta (Function.update theta p s))) →
        Spec.InvertsShares P theta (delta theta) (inverse theta) →
        HasDerivAt (fun s => (y (Function.update theta p s)).numerator) (b.numeratorJacobian p) (theta p) ∧
        HasDerivAt (fun s => (y (Function.update theta p s)).denominator) (b.denominatorJacobian p) (theta p) := fun part => by
    by_cases ht : part ∈ parts
    · obtain ⟨b, hb⟩ := gather_inv _ _ _ h part ht
      obtain ⟨y, h1, h2⟩ := total_part P Q theta delta inverse hQ markets parts part b hb
      exact ⟨b, y, fun _ => ⟨hb, h1, h2⟩⟩
    · exact ⟨PartContribution.zero, fun _ => PartContribution.zero, fun h => absurd h ht⟩
  choose b y hby using hy
  have hl := gather_map _ b parts fun t ht => (hby t ht).1
  rw [h] at hl
  refine ⟨b, fun theta' part => y part theta', Except.ok.inj hl, fun theta' => ?_, fun p hP hdelta hinv part hpart =>
    (hby part hpart).2.2 p hP hdelta hinv⟩
  unfold PanelProblem.partsAt
  exact gather_map _ (fun part => y part theta') parts fun part hpart => (hby part hpart).2.1 theta'

namespace Spec

/-- `gradient` are the partial derivatives of a differentiable function of a list at `l`. -/
def GradientAt (f : List ℝ → ℝ) (gradient l : List ℝ) : Prop :=
  ∀ (n : ℕ) (v : Fin n → ℝ), l = List.ofFn v →
    ∃ L : (Fin n → ℝ) →L[ℝ] ℝ, HasFDerivAt (fun y => f (List.ofFn y)) L v ∧ gradient = List.ofFn fun k => L (Pi.single k 1)

end Spec

lemma hasDerivAt_of_gradient {α : Type} (f : List ℝ → ℝ) (l : List α) (value : ℝ → α → ℝ) (derivative : α → ℝ) (x : ℝ) (gradient : List ℝ)
    (h : ∀ a ∈ l, HasDerivAt (fun s => value s a) (derivative a) x) (hg : Spec.GradientAt f gradient (l.map (value x))) :
    HasDerivAt (fun s => f (l.map (value s))) ((l.zip gradient).map fun a => a.2 * derivative a.1).sum x := by
  have hl : ∀ s, l.map (value s) = List.ofFn fun i : Fin l.length => value s l[i] := fun s => by
    conv_lhs => rw [← List.ofFn_getElem (xs := l), List.map_ofFn]
    rfl
  obtain ⟨L, hL, rfl⟩ := hg l.length (fun i => value x l[i]) (hl x)
  simp only [hl]
  have hpath : HasDerivAt (fun s => fun i : Fin l.length => value s l[i]) (fun i => derivative l[i]) x :=
    hasDerivAt_pi.mpr fun i => h _ (List.getElem_mem _)
  refine (hL.comp_hasDerivAt x hpath).congr_deriv ?_
  have h1 : (l.zip (List.ofFn fun k => L (Pi.single k 1))).map (fun a => a.2 * derivative a.1) =
      List.ofFn fun i : Fin l.length => L (Pi.single i 1) * derivative l[i] := by
    apply List.ext_getElem
    · simp
    · intro i hi hi'
      simp
  rw [h1, List.sum_ofFn]
  refine (L.toLinearMap.pi_apply_eq_sum_univ fun i : Fin l.length => derivative l[i]).trans (Finset.sum_congr rfl fun i _ => ?_)
  have : (fun j => if i = j then (1 : ℝ) else 0) = Pi.single i 1 := by
    funext j
    by_cases hij : i = j
    · subst hij; simp
    · rw [if_neg hij, Pi.single_eq_of_ne' hij]
  rw [this, smul_eq_mul, mul_comm]
  rfl

/-- **C118, micro moments.** If contributions to micro moments can be computed at some parameters, they can be at all, and what is computed
as the Jacobian of micro moments is their derivative: when a parameter changes, and with it the mean utilities that explain shares, all markets
contribute, and moments are whatever differentiable functions of parts the user defines. -/
theorem C118_micro_jacobian (hQ : Spec.ProperMicro P Q) (markets : List M) (parts : List Part)
    (hparts : Q.config.buildMoments Q.moments = .ok parts) (hvalid : ∀ k ∈ Q.moments, Q.config.validateMoment k = .ok ())
    (x : List (PartContribution Part θ)) (h : P.partsAt Q markets parts theta (delta theta) (inverse theta) = .ok x)
    (hden : ∀ c ∈ x, c.denominator ≠ 0) (micro' : Matrix (Fin Q.moments.length) θ ℝ) (hmicro : Q.microJacobian parts x = .ok micro')
    (hgrad : ∀ k ∈ Q.moments, Spec.GradientAt (Q.computeValue k)
      (Q.computeGradient k (partArguments Q.config.parts parts (partsValues x) k)) (partArguments Q.config.parts parts (partsValues x) k)) :
    ∃ y : (θ → ℝ) → List (PartContribution Part θ), y theta = x ∧
      (∀ theta', P.partsAt Q markets parts theta' (delta theta') (inverse theta') = .ok (y theta')) ∧
      ∀ p, Spec.ProperPanel P theta p →
        (∀ᶠ s in 𝓝 (theta p), Spec.Explained P (Function.update theta p s) (delta (Function.update theta p s))) →
        Spec.InvertsShares P theta (delta theta) (inverse theta) →
        ∀ k, HasDerivAt (fun s => Q.micro parts (y (Function.update theta p s)) k) (micro' k p) (theta p) := by
  obtain ⟨b, y, hx, hy, hder⟩ := total_parts P Q theta delta inverse hQ markets parts x h
  have hstart : parts.map (y theta) = x := by
    have := hy theta
    rw [h] at this
    exact (Except.ok.inj this).symm
  have hpoint : ∀ part ∈ parts, y theta part = b part := by
    rw [hx] at hstart
    exact List.map_inj_left.mp hstart
  refine ⟨fun theta' => parts.map (y theta'), hstart, hy, fun p hP hdelta hinv k => ?_⟩
  have hk : Q.moments[k] ∈ Q.moments := List.getElem_mem _
  have hvalues : ∀ z : Part → PartContribution Part θ, partsValues (parts.map z) =
      parts.map fun part => (z part).numerator / (z part).denominator := fun z => by
    unfold partsValues
    rw [List.map_map]
    rfl
  have hargs : ∀ z : Part → PartContribution Part θ, partArguments Q.config.parts parts (partsValues (parts.map z)) Q.moments[k] =
      (Q.config.parts Q.moments[k]).map fun part => (z part).numerator / (z part).denominator := fun z => by
    rw [hvalues, C58_arguments hparts _ hk]
  have hmem : ∀ part ∈ Q.config.parts Q.moments[k], part ∈ parts := fun part hpart =>
    ((C58_once hparts).2 part).mpr ⟨_, hk, hpart⟩
  unfold PanelMicro.microJacobian at hmicro
  simp only at hmicro
  split_ifs at hmicro with hlen
  cases hmicro
  push Not at hlen
  subst hx
  have hd : ∀ part ∈ Q.config.parts Q.moments[k], HasDerivAt
      (fun s => (y (Function.update theta p s) part).numerator / (y (Function.update theta p s) part).denominator)
      (partsJacobianEntry (b part).numerator (b part).denominator ((b part).numeratorJacobian p) ((b part).denominatorJacobian p))
      (theta p) := fun part hpart => by
    obtain ⟨h1, h2⟩ := hder p hP hdelta hinv part (hmem part hpart)
    have hb := hpoint part (hmem part hpart)
    have h3 := C58_part_derivative _ _ _ _ _ h1 h2 (by
      simp only [Function.update_eq_self, hb]
      exact hden _ (List.mem_map_of_mem (hmem part hpart)))
    simpa only [Function.update_eq_self, hb] using h3
  unfold PanelMicro.micro
  simp only [hargs]
  rw [Matrix.of_apply, C58_jacobian hparts _ hk (hvalid _ hk) _ (hlen _ hk)
    (fun part => partsJacobianEntry (b part).numerator (b part).denominator ((b part).numeratorJacobian p) ((b part).denominatorJacobian p)) _ ?_]
  · refine HasDerivAt.const_sub _ (hasDerivAt_of_gradient _ _ _ _ _ _ hd ?_)
    have hg := hgrad _ hk
    rw [hargs] at hg ⊢
    convert hg using 1
    refine List.map_congr_left fun part hpart => ?_
    simp only [Function.update_eq_self, hpoint part (hmem part hpart)]
  · intro part hpart
    have : (parts.map b).getD (parts.idxOf part) PartContribution.zero = b part := by
      have hi := List.idxOf_lt_length_of_mem hpart
      rw [List.getD_eq_getElem _ _ (by rw [List.length_map]; exact hi), List.getElem_map, List.getElem_idxOf]
    simp only [this]

/-! ## The gradient with micro moments -/

/-- Micro moments as a function of parameters. -/
noncomputable def Spec.microOf (markets : List M) (parts : List Part) (theta' : θ → ℝ) (k : Fin Q.moments.length) : ℝ :=
  match P.partsAt Q markets parts theta' (delta theta') (inverse theta') with
  | .ok x => Q.micro parts x k
  | .error _ => 0

variable {nd ns : ℕ} {m : Fin nd ⊕ Fin ns → Type} {q b g : Type} [∀ e, Fintype (m e)] [Fintype q] [Fintype b] [Fintype g]
  [DecidableEq b] [DecidableEq g] [IsEmpty q] [Fintype θ]

variable (Mo : MomentData n nd ns m q b g) (scale : Bool)
  (W : Matrix ((MomentIndex m ⊕ q) ⊕ Fin Q.moments.length) ((MomentIndex m ⊕ q) ⊕ Fin Q.moments.length) ℝ) (hW : ∀ a c, W a c = W c a)
  (hcross : ∀ a c, W (Sum.inl a) (Sum.inr c) = 0) (phi : (θ → ℝ) → Fin 2 → Fin 2 → ℝ) (mean : ℝ)
  (location : θ → Option (Fin 2 × Fin 2)) (C : (θ → ℝ) → Matrix (b ⊕ g) (b ⊕ g) ℝ)
  (hphi : Spec.IsPhi location phi) (hsupply : Mo.hasSupply = false → ∀ p l, location p = some l → l = (0, 0))

section

variable (hQ : Spec.ProperMicro P Q) (markets : List M) (parts : List Part)
  (hparts : Q.config.buildMoments Q.moments = .ok parts) (hvalid : ∀ k ∈ Q.moments, Q.config.validateMoment k = .ok ())
  (x : List (PartContribution Part θ)) (h : P.partsAt Q markets parts theta (delta theta) (inverse theta) = .ok x)
  (hden : ∀ c ∈ x, c.denominator ≠ 0) (micro' : Matrix (Fin Q.moments.length) θ ℝ) (hmicro : Q.microJacobian parts x = .ok micro')
  (hgrad : ∀ k ∈ Q.moments, Spec.GradientAt (Q.computeValue k)
    (Q.computeGradient k (partArguments Q.config.parts parts (partsValues x) k)) (partArguments Q.config.parts parts (partsValues x) k))

include hQ hparts hvalid h hden hmicro hgrad in
lemma hasDerivAt_microOf (p : θ) (hP : Spec.ProperPanel P theta p)
    (hdelta : ∀ᶠ s in 𝓝 (theta p), Spec.Explained P (Function.update theta p s) (delta (Function.update theta p s)))
    (hinv : Spec.InvertsShares P theta (delta theta) (inverse theta)) (k : Fin Q.moments.length) :
    HasDerivAt (fun s => Spec.microOf P Q delta inverse markets parts (Function.update theta p s) k) (micro' k p) (theta p) := by
  obtain ⟨y, -, hy, hder⟩ := C118_micro_jacobian P Q theta delta inverse hQ markets parts hparts hvalid x h hden micro' hmicro hgrad
  have : ∀ theta', Spec.microOf P Q delta inverse markets parts theta' k = Q.micro parts (y theta') k := fun theta' => by
    unfold Spec.microOf
    rw [hy]
  simp only [this]
  exact hder p hP hdelta hinv k

include hQ hparts hvalid h hden hmicro hgrad hW hcross hphi hsupply in
/-- **C118, with micro moments.** The gradient that is computed from what markets report about demand, supply and micro data is the derivative
of the whole objective, in which mean utilities explain shares, marginal costs explain prices, micro moments are functions of averages over
agents in all markets, and linear parameters are concentrated out. -/
theorem C118_micro_gradient (p : θ) (hP : Spec.ProperPanel P theta p)
    (hdelta : ∀ᶠ s in 𝓝 (theta p), Spec.Explained P (Function.update theta p s) (delta (Function.update theta p s)))
    (hX2 : ∀ t j k, (P.tastes t).X2 j k = (P.prices t).x2 k j ((P.prices t).x0 j))
    (deltaInverse : (t : M) → J t → J t → ℝ) (hinv : Spec.InvertsShares P theta (delta theta) (inverse theta))
    (hdinv : Spec.InvertsMarkups P theta (delta theta) deltaInverse) (last : (t : M) → J t → ℝ)
    (hbounds : ∀ t j, P.costsBounds.1 < (P.costsAt theta t (delta theta t) j : EReal) ∧
      (P.costsAt theta t (delta theta t) j : EReal) < P.costsBounds.2 ∧ (P.logCosts = true → 0 < P.costsAt theta t (delta theta t) j))
    (hC : ∀ᶠ s in 𝓝 (theta p), ivCovariancesInverse (Mo.regressors (phi (Function.update theta p s))) Mo.Z (ivWeights (ivWeights W)) *
      C (Function.update theta p s) = 1) :
    HasDerivAt (fun s => Spec.wholeObjective P Mo scale W phi mean (Spec.microOf P Q delta inverse markets parts) C delta
        (Function.update theta p s))
      (Mo.gradient true scale (C theta) W (phi theta) (P.ivDelta theta (delta theta)) (P.ivCosts theta (delta theta))
        ((P.xiJacobian theta (delta theta) (inverse theta)).col p)
        ((P.omegaJacobian theta (delta theta) (inverse theta) deltaInverse last).col p) mean (location p) (Q.micro parts x) (micro'.col p))
      (theta p) := by
  have h1 := C118_gradient P Mo scale W hW hcross phi mean (Spec.microOf P Q delta inverse markets parts) location C theta hphi hsupply p hP
    delta hdelta hX2 (inverse theta) deltaInverse hinv hdinv last hbounds micro'
    (hasDerivAt_microOf P Q theta delta inverse hQ markets parts hparts hvalid x h hden micro' hmicro hgrad p hP hdelta hinv) hC
  have h2 : Spec.microOf P Q delta inverse markets parts theta = Q.micro parts x := by
    funext k
    unfold Spec.microOf
    rw [h]
  rw [h2] at h1
  exact h1

include hQ hparts hvalid h hden hmicro hgrad hW hcross hphi hsupply in
/-- **C118, with micro moments.** The same without a supply side. -/
theorem C118_micro_demand_gradient (p : θ) (hP : Spec.ProperPanel P theta p)
    (hdelta : ∀ᶠ s in 𝓝 (theta p), Spec.Explained P (Function.update theta p s) (delta (Function.update theta p s)))
    (hinv : Spec.InvertsShares P theta (delta theta) (inverse theta))
    (hC : ∀ᶠ s in 𝓝 (theta p), ivCovariancesInverse (Mo.regressors (phi (Function.update theta p s))) Mo.Z (ivWeights (ivWeights W)) *
      C (Function.update theta p s) = 1) :
    HasDerivAt (fun s => Spec.demandObjective P Mo scale W phi mean (Spec.microOf P Q delta inverse markets parts) C delta
        (Function.update theta p s))
      (Mo.gradient true scale (C theta) W (phi theta) (P.ivDelta theta (delta theta)) 0
        ((P.xiJacobian theta (delta theta) (inverse theta)).col p) 0 mean (location p) (Q.micro parts x) (micro'.col p)) (theta p) := by
  have h1 := C118_demand_gradient P Mo scale W hW hcross phi mean (Spec.microOf P Q delta inverse markets parts) location C theta hphi hsupply
    p hP delta hdelta (inverse theta) hinv micro'
    (hasDerivAt_microOf P Q theta delta inverse hQ markets parts hparts hvalid x h hden micro' hmicro hgrad p hP hdelta hinv) hC
  have h2 : Spec.microOf P Q delta inverse markets parts theta = Q.micro parts x := by
    funext k
    unfold Spec.microOf
    rw [h]
  rw [h2] at h1
  exact h1

end

end panel

/-! ## Non-vacuity -/

/-- A survey in both markets that asks who bought something, and the average of the number of the agent among them: one moment, the square of
its part. -/
def surveyWitness : PanelMicro (Fin 2) (fun _ => Fin 3) (fun _ => Fin 2) Unit Unit Unit Unit where
  count := fun _ => 2
  agent := fun _ i => if i = 0 then 0 else 1
  included := fun _ _ => true
  ids := fun _ _ => none
  functions := fun _ => {
    weights := fun _ l => some ⟨.first true, l.map fun _ _ => 1⟩
    values := fun _ l => some ⟨.first true, l.map fun a c => if c = .first none then 0 else a.val⟩ }
  config := ⟨fun _ => "m", fun _ => [()], fun _ => "p", fun _ => (), fun _ => "d", fun _ => true⟩
  moments := [()]
  value := fun _ => 1
  computeValue := fun _ l => l.headD 0 ^ 2
  computeGradient := fun _ l => [2 * l.headD 0]

lemma surveyWitness_market (theta : Fin 3 → ℝ) (t : Fin 2) (delta : Fin 3 → ℝ) (inverse : Fin 3 → Fin 3 → ℝ) :
    ∃ x, microContributions (wholeWitness.microMarketAt surveyWitness theta t delta inverse) (surveyWitness.functions t)
      surveyWitness.config.dataset [()] () 1 = .ok x ∧ 0 < x.denominator := by
  set mm := wholeWitness.microMarketAt surveyWitness theta t delta inverse with hmm
  have hd := datasetContributions_of mm (surveyWitness.functions t) () (List.range 2) ⟨.first true, [fun _ => 1, fun _ => 1]⟩ rfl rfl
    (by simp)
  have hv : computeMicroValues mm (surveyWitness.functions t) () (.first true) (List.range 2) =
      .ok ⟨.first true, ((List.range 2).map mm.row).map fun a c => if c = .first none then 0 else a.val⟩ := by
    unfold computeMicroValues
    simp [surveyWitness]
  have ho : otherValues mm (surveyWitness.functions t) surveyWitness.config.dataset (.first true) (List.range 2) () [()] =
      .ok [((), ((List.range 2).map mm.row).map fun a c => if c = .first none then 0 else a.val)] := by
    simp [otherValues, hv]
  have hfactor : ∀ i, ∑ c ∈ MicroShape.cells (J := Fin 3) (.first true), mm.factor () i c =
      openMarket.weights (surveyWitness.agent t i) := by
    intro i
    unfold MicroShape.cells choices
    rw [Finset.sum_image (by intro a _ b _ hab; simpa using hab)]
    simp only [if_true, Fintype.sum_option]
    simp only [hmm, PanelProblem.microMarketAt, microMarket, cellProbability, microProduct, ← Finset.mul_sum]
    rw [← mul_add, sub_add_cancel, mul_one]
    rfl
  have hpos : ∀ i, 0 < ∑ c ∈ MicroShape.cells (J := Fin 3) (.first true), max (1 * mm.factor () i c) 0 := fun i => by
    refine lt_of_lt_of_le (openMarket_weights (surveyWitness.agent t i)) ?_
    rw [← hfactor i]
    exact Finset.sum_le_sum fun c _ => by rw [one_mul]; exact le_max_left _ _
  rw [microContributions_one]
  have hI : mm.I = 2 := rfl
  rw [hI]
  unfold partContribution
  rw [if_neg (by simp [hmm, microMarketAt_included, surveyWitness]), hd]
  simp only [show surveyWitness.config.dataset () = () from rfl, hv, ho]
  refine ⟨_, rfl, ?_⟩
  simp only [PartContribution.add, PartContribution.zero, zero_add, sumRows, List.range_succ, List.range_zero, List.nil_append,
    List.zipWith_cons_cons, List.singleton_append, List.map_cons, List.sum_cons, List.zipWith_nil_left, List.map_nil, List.sum_nil, add_zero]
  exact add_pos (hpos 0) (hpos 1)

lemma surveyWitness_parts (theta : Fin 3 → ℝ) (delta : Fin 2 → Fin 3 → ℝ) (inverse : Fin 2 → Fin 3 → Fin 3 → ℝ) :
    ∃ x, wholeWitness.partsAt surveyWitness [0, 1] [()] theta delta inverse = .ok x ∧ x.length = 1 ∧ ∀ c ∈ x, c.denominator ≠ 0 := by
  obtain ⟨x0, h0, p0⟩ := surveyWitness_market theta 0 (delta 0) (inverse 0)
  obtain ⟨x1, h1, p1⟩ := surveyWitness_market theta 1 (delta 1) (inverse 1)
  refine ⟨[addContributions [x0, x1]], ?_, rfl, ?_⟩
  · unfold PanelProblem.partsAt PanelProblem.partAt
    simp only [gather]
    rw [show ([()] : List Unit).take ([()].idxOf () + 1) = [()] from rfl, h0, h1]
  · intro c hc
    rw [List.mem_singleton.mp hc]
    unfold addContributions
    rw [(addContributions_foldl _ _).2.1]
    simp only [PartContribution.zero, List.map_cons, List.map_nil, List.sum_cons, List.sum_nil]
    linarith

lemma surveyWitness_gradient (l : List ℝ) (hl : l.length = 1) (k : Unit) :
    Spec.GradientAt (surveyWitness.computeValue k) (surveyWitness.computeGradient k l) l := by
  intro n v hv
  have hn : n = 1 := by
    rw [hv, List.length_ofFn] at hl
    exact hl
  subst hn
  have h1 : HasFDerivAt (fun y : Fin 1 → ℝ => y 0) (ContinuousLinearMap.proj (R := ℝ) (φ := fun _ : Fin 1 => ℝ) 0) v := hasFDerivAt_apply 0 v
  refine ⟨_, h1.pow 2, ?_⟩
  rw [hv]
  simp [surveyWitness]

/-- Weights of the example with a micro moment. -/
abbrev surveyWeights : Matrix ((MomentIndex (fun _ : Fin 1 ⊕ Fin 0 => Fin 1) ⊕ Empty) ⊕ Fin surveyWitness.moments.length)
    ((MomentIndex (fun _ : Fin 1 ⊕ Fin 0 => Fin 1) ⊕ Empty) ⊕ Fin surveyWitness.moments.length) ℝ := 1

lemma surveyWeights_symmetric : ∀ a c, surveyWeights a c = surveyWeights c a := fun a c =>
  congrFun (congrFun Matrix.transpose_one.symm a) c

lemma surveyWeights_iv : ivWeights (ivWeights surveyWeights) = 1 := by
  ext a c
  simp [ivWeights, Matrix.one_apply]

lemma surveyWitness_proper : Spec.ProperMicro wholeWitness surveyWitness where
  agents t := by
    show ((([0, 1].map (surveyWitness.agent t)) : List (Fin 2)) : Multiset (Fin 2)) = _
    rfl
  offered t i := ⟨0, openMarket_offered true i (openMarket_weights i) 0⟩
  ids _ _ := rfl

/-- Non-vacuity of C118 with micro moments: in the example, for each parameter. -/
example (theta : Fin 3 → ℝ) (h0 : 0 < theta 1) (h1 : theta 1 < 1) (inverse : (Fin 3 → ℝ) → Fin 2 → Fin 3 → Fin 3 → ℝ)
    (hinv : Spec.InvertsShares wholeWitness theta (Spec.meanUtilities wholeWitness theta) (inverse theta)) :
    ∃ x micro', wholeWitness.partsAt surveyWitness [0, 1] [()] theta (Spec.meanUtilities wholeWitness theta) (inverse theta) = .ok x ∧
      surveyWitness.microJacobian [()] x = .ok micro' ∧ ∀ p,
      HasDerivAt (fun s => Spec.demandObjective wholeWitness wholeMoments true surveyWeights (fun _ _ _ => 0) 0
        (Spec.microOf wholeWitness surveyWitness (Spec.meanUtilities wholeWitness) inverse [0, 1] [()])
        (fun _ => (1 / 36 : ℝ) • 1) (Spec.meanUtilities wholeWitness) (Function.update theta p s))
        (wholeMoments.gradient true true ((1 / 36 : ℝ) • 1) surveyWeights (fun _ _ => 0)
          (wholeWitness.ivDelta theta (Spec.meanUtilities wholeWitness theta)) 0
          ((wholeWitness.xiJacobian theta (Spec.meanUtilities wholeWitness theta) (inverse theta)).col p) 0 0 none
          (surveyWitness.micro [()] x) (micro'.col p)) (theta p) := by
  have hP := wholeWitness_proper theta h0 h1
  obtain ⟨x, hx, hlen, hden⟩ := surveyWitness_parts theta (Spec.meanUtilities wholeWitness theta) (inverse theta)
  have hargs : ∀ k, (partArguments surveyWitness.config.parts [()] (partsValues x) k).length = 1 := fun k => by
    simp [partArguments, partIndices, surveyWitness]
  have hJ : ∃ micro', surveyWitness.microJacobian [()] x = .ok micro' := by
    unfold PanelMicro.microJacobian
    simp only
    rw [if_neg]
    · exact ⟨_, rfl⟩
    · rintro ⟨m, -, hm⟩
      exact hm rfl
  obtain ⟨micro', hmicro⟩ := hJ
  refine ⟨x, micro', hx, hmicro, fun p => ?_⟩
  exact C118_micro_demand_gradient wholeWitness surveyWitness theta (Spec.meanUtilities wholeWitness) inverse wholeMoments true surveyWeights
    surveyWeights_symmetric (fun a c => Matrix.one_apply_ne (by simp)) (fun _ _ _ => 0) 0 (fun _ => none) (fun _ => (1 / 36 : ℝ) • 1)
    ⟨fun _ _ h => by simp at h, fun _ _ _ _ => rfl⟩ (fun _ _ _ h => by simp at h) surveyWitness_proper [0, 1] [()] rfl
    (fun k _ => rfl) x hx hden micro' hmicro (fun k _ => surveyWitness_gradient _ (hargs k) k) p (hP p)
    (explained_near wholeWitness wholeWitness_explainable theta p (hP p)) hinv
    (Eventually.of_forall fun _ => by rw [surveyWeights_iv]; exact wholeMoments_inverse _)

end Pyblp
