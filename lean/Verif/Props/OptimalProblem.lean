import Mathlib.Data.List.Nodup
import Mathlib.Tactic.Linarith
import Verif.Model.OptimalProblem
import Verif.Props.Formulation

/-!
# C102: instruments of problems and of problems with optimal instruments
-/

set_option linter.unusedSectionVars false

namespace Pyblp
namespace Formula

variable {R : Type}

/-! ### Specification -/

namespace Spec

/-- Two data sets that only differ in prices and in market shares. -/
def SameExogenous (data data' : ColumnData R) : Prop := ∀ n, n ≠ pricesName → n ≠ sharesName → data n = data' n

/-- A variable that is not prices or shares. -/
def ExogenousName (n : Name) : Prop := n ≠ pricesName ∧ n ≠ sharesName

/-- A column that is not in terms of prices or shares. -/
def ExogenousColumn (e : Expr) : Prop := ∀ n ∈ e.symbols, ExogenousName n

end Spec

theorem evaluateColumn_congr {data data' : ColumnData R} {e : Expr} (h : ∀ n ∈ e.symbols, data n = data' n) :
    evaluateColumn data e = evaluateColumn data' e := by
  funext r
  exact eval_congr fun n hn => congrFun (h n hn) r

theorem evaluateColumn_exogenous {data data' : ColumnData R} (h : Spec.SameExogenous data data') {e : Expr} (he : Spec.ExogenousColumn e) :
    evaluateColumn data e = evaluateColumn data' e :=
  evaluateColumn_congr fun n hn => h n (he n hn).1 (he n hn).2

theorem supplement_eq (data : ColumnData R) (x : Name) (X : List Expr) (Z : List (R → ℝ)) :
    supplement data x X Z = Z ++ (X.filter fun e => decide (x ∉ e.symbols)).map (evaluateColumn data) := by
  unfold supplement
  induction X generalizing Z with
  | nil => simp
  | cons e X ih =>
    rw [List.foldl_cons, ih]
    by_cases h : x ∈ e.symbols
    · simp [h]
    · simp [h]

theorem supplement_exogenous {data data' : ColumnData R} (h : Spec.SameExogenous data data') (x : Name) (X : List Expr) (Z : List (R → ℝ))
    (hX : ∀ e ∈ X, x ∉ e.symbols → Spec.ExogenousColumn e) : supplement data x X Z = supplement data' x X Z := by
  rw [supplement_eq, supplement_eq]
  congr 1
  refine List.map_congr_left fun e he => ?_
  rw [List.mem_filter] at he
  exact evaluateColumn_exogenous h (hX e he.1 (of_decide_eq_true he.2))

theorem accepted_X1 {f : Formulations R} (hf : f.Accepted) (e : Expr) (he : e ∈ f.X1) (h : pricesName ∉ e.symbols) : Spec.ExogenousColumn e :=
  fun _ hn => ⟨fun h' => h (h' ▸ hn), fun h' => hf.1 e he (h' ▸ hn)⟩

theorem accepted_X3 {f : Formulations R} (hf : f.Accepted) (e : Expr) (he : e ∈ f.X3) (h : sharesName ∉ e.symbols) : Spec.ExogenousColumn e :=
  fun _ hn => ⟨fun h' => hf.2 e he (h' ▸ hn), fun h' => h (h' ▸ hn)⟩

/-- **C102** (problems). Instruments of a problem are the given ones, followed by the columns of `X1` without prices or of `X3` without shares, all
after fixed effects are absorbed. -/
theorem C102_problem (f : Formulations R) (data : ColumnData R) (demand supply : List Name) (h3 : f.X3 ≠ []) :
    problemZD f data demand true =
      (demand.map data ++ (f.X1.filter fun e => decide (pricesName ∉ e.symbols)).map (evaluateColumn data)).map f.absorbDemand ∧
    problemZS f data supply true =
      (supply.map data ++ (f.X3.filter fun e => decide (sharesName ∉ e.symbols)).map (evaluateColumn data)).map f.absorbSupply ∧
    problemZD f data demand false = demand.map data ∧ problemZS f data supply false = supply.map data := by
  refine ⟨?_, ?_, rfl, ?_⟩
  · rw [problemZD, if_pos rfl, absorbColumns, supplement_eq]; rfl
  · rw [problemZS, if_neg h3, if_pos rfl, absorbColumns, supplement_eq]; rfl
  · rw [problemZS, if_neg h3]; rfl

/-- **C102** (problems). Instruments of a problem do not depend on prices or on market shares, unless those that are given are prices or shares. -/
theorem C102_problem_exogenous (f : Formulations R) (hf : f.Accepted) (data data' : ColumnData R) (h : Spec.SameExogenous data data')
    (demand supply : List Name) (hd : ∀ n ∈ demand, Spec.ExogenousName n) (hs : ∀ n ∈ supply, Spec.ExogenousName n) (addExogenous : Bool) :
    problemZD f data demand addExogenous = problemZD f data' demand addExogenous ∧
      problemZS f data supply addExogenous = problemZS f data' supply addExogenous := by
  have hgiven : ∀ names : List Name, (∀ n ∈ names, Spec.ExogenousName n) → givenColumns data names = givenColumns data' names := by
    intro names hn
    exact List.map_congr_left fun n hmem => h n (hn n hmem).1 (hn n hmem).2
  constructor
  · unfold problemZD
    rw [hgiven demand hd, supplement_exogenous h pricesName f.X1 _ (accepted_X1 hf)]
  · unfold problemZS
    rw [hgiven supply hs, supplement_exogenous h sharesName f.X3 _ (accepted_X3 hf)]

/-! ### Problems with optimal instruments -/

theorem trueColumns_exogenous {data data' : ColumnData R} (X : List Expr) (index : ℕ → Bool)
    (hX : ∀ e ∈ X, evaluateColumn data e = evaluateColumn data' e) : trueColumns X index data = trueColumns X index data' := by
  unfold trueColumns
  refine List.map_congr_left fun p hp => ?_
  rw [List.mem_filter] at hp
  exact hX p.1 (List.fst_mem_of_mem_zipIdx hp.1)

theorem override_exogenous {data data' : ColumnData R} (h : Spec.SameExogenous data data') (x y : Name) (hxy : ∀ n, n ≠ x → n ≠ y → Spec.ExogenousName n)
    (values : R → ℝ) (e : Expr) (he : y ∉ e.symbols) :
    evaluateColumn (overrideColumn data x values) e = evaluateColumn (overrideColumn data' x values) e := by
  refine evaluateColumn_congr fun n hn => ?_
  unfold overrideColumn
  by_cases hx : n = x
  · rw [if_pos hx, if_pos hx]
  · rw [if_neg hx, if_neg hx]
    have := hxy n hx (fun h' => he (h' ▸ hn))
    exact h n this.1 this.2

/-- **C102** (optimal instruments for demand). Demand-side instruments of a problem that is created again do not depend on prices or market shares,
given optimal instruments, expected prices, and exogenous shifters. -/
theorem C102_updated_demand (f : Formulations R) (hf : f.Accepted) (data data' : ColumnData R) (h : Spec.SameExogenous data data')
    (o : OptimalResults R) (ho : ∀ e ∈ o.supplyShifters, Spec.ExogenousColumn e) (dropIndices : Option (List ℕ)) :
    updatedZD f data o dropIndices = updatedZD f data' o dropIndices := by
  have hopt : optimalDemand f data o dropIndices = optimalDemand f data' o dropIndices := by
    unfold optimalDemand
    rw [trueColumns_exogenous (data' := overrideColumn data' pricesName o.expectedPrices) f.X1 _ fun e he =>
      override_exogenous h pricesName sharesName (fun n h1 h2 => ⟨h1, h2⟩) _ e (hf.1 e he)]
    rw [List.map_congr_left fun e he => evaluateColumn_exogenous h (ho e he)]
  unfold updatedZD
  rw [hopt, supplement_exogenous h pricesName f.X1 _ (accepted_X1 hf)]

/-- **C102** (optimal instruments for supply). Supply-side instruments of a problem that is created again do not depend on prices or market shares
if no column of `X3` depends on shares. Missing: such columns, see `C102_refuted`. -/
theorem C102_updated_supply_partial (f : Formulations R) (hf : f.Accepted) (data data' : ColumnData R) (h : Spec.SameExogenous data data')
    (o : OptimalResults R) (ho : ∀ e ∈ o.demandShifters, Spec.ExogenousColumn e) (dropIndices : Option (List ℕ))
    (hshares : ∀ e ∈ f.X3, sharesName ∉ e.symbols) :
    updatedZS f data o dropIndices = updatedZS f data' o dropIndices := by
  have hopt : optimalSupply f data o dropIndices = optimalSupply f data' o dropIndices := by
    unfold optimalSupply
    rw [trueColumns_exogenous (data' := overrideColumn data' sharesName o.expectedShares) f.X3 _ fun e he =>
      override_exogenous h sharesName pricesName (fun n h1 h2 => ⟨h2, h1⟩) _ e (hf.2 e he)]
    rw [List.map_congr_left fun e he => evaluateColumn_exogenous h (ho e he)]
  unfold updatedZS
  rw [hopt, trueColumns_exogenous f.X3 _ fun e he => evaluateColumn_exogenous h (accepted_X3 hf e he (hshares e he))]

/-- **C102** (optimal instruments, contents). Instruments of a problem that is created again are: optimal instruments for parameters that are not
dropped; columns in terms of prices (or shares) with parameters that are concentrated out, at expected prices (or shares); shifters; and
columns of `X1` without prices, or all columns of `X3`. -/
theorem C102_updated (f : Formulations R) (data : ColumnData R) (o : OptimalResults R) (dropIndices : Option (List ℕ)) (h3 : f.X3 ≠ []) :
    updatedZD f data o dropIndices = (keepColumns o.demandInstruments (droppedIndex f o dropIndices) ++
      trueColumns f.X1 (eliminatedEndogenous f.X1 pricesName o.eliminatedBeta) (overrideColumn data pricesName o.expectedPrices) ++
      o.supplyShifters.map (evaluateColumn data) ++
      (f.X1.filter fun e => decide (pricesName ∉ e.symbols)).map (evaluateColumn data)).map f.absorbDemand ∧
    updatedZS f data o dropIndices = (keepColumns o.supplyInstruments (droppedIndex f o dropIndices) ++
      trueColumns f.X3 (eliminatedEndogenous f.X3 sharesName o.eliminatedGamma) (overrideColumn data sharesName o.expectedShares) ++
      o.demandShifters.map (evaluateColumn data) ++ f.X3.map (evaluateColumn data)).map f.absorbSupply := by
  refine ⟨?_, ?_⟩
  · rw [updatedZD, absorbColumns, supplement_eq, optimalDemand]
  · rw [updatedZS, absorbColumns, optimalSupply, if_neg h3]
    congr 2
    unfold trueColumns
    rw [List.filter_true]
    show List.map (evaluateColumn data ∘ Prod.fst) f.X3.zipIdx = _
    rw [← List.map_map, List.zipIdx_map_fst]

/-! ### The order condition -/

/-- A column in a place of a matrix, if there is one, satisfies a condition. -/
def holdsAt (X : List Expr) (q : Expr → ℕ → Bool) (k : ℕ) : Bool := X[k]?.elim false fun e => q e k

theorem length_filter_zipIdx (X : List Expr) (q : Expr → ℕ → Bool) :
    (X.zipIdx.filter fun p => q p.1 p.2).length = ((Finset.range X.length).filter fun k => holdsAt X q k = true).card := by
  induction X using List.reverseRecOn with
  | nil => simp
  | append_singleton X e ih =>
    rw [List.zipIdx_append, List.filter_append, List.length_append, ih, List.length_append, List.length_singleton, Finset.range_add_one,
      Finset.filter_insert]
    have hlt : ((Finset.range X.length).filter fun k => holdsAt (X ++ [e]) q k = true) =
        (Finset.range X.length).filter fun k => holdsAt X q k = true := by
      refine Finset.filter_congr fun k hk => ?_
      rw [holdsAt, holdsAt, List.getElem?_append_left (Finset.mem_range.1 hk)]
    have hlast : holdsAt (X ++ [e]) q X.length = q e X.length := by simp [holdsAt]
    rw [hlast, hlt]
    by_cases hq : q e X.length = true
    · rw [if_pos hq, Finset.card_insert_of_notMem (by simp)]
      simp [hq]
    · rw [if_neg hq]
      simp [hq]

theorem length_filter_columns (X : List Expr) (q : Expr → Bool) :
    (X.filter q).length = ((Finset.range X.length).filter fun k => holdsAt X (fun e _ => q e) k = true).card := by
  rw [← length_filter_zipIdx X fun e _ => q e]
  have : X.filter q = (X.zipIdx.map Prod.fst).filter q := by rw [List.zipIdx_map_fst]
  rw [this, List.filter_map, List.length_map]
  rfl

theorem length_keepColumns (Z : List (R → ℝ)) (dropped : List Bool) (h : Z.length = dropped.length) :
    (keepColumns Z dropped).length = (dropped.filter fun b => !b).length := by
  unfold keepColumns
  rw [List.length_map]
  induction Z generalizing dropped with
  | nil => cases dropped <;> simp_all
  | cons z Z ih =>
    cases dropped with
    | nil => simp at h
    | cons b dropped =>
      simp only [List.zip_cons_cons]
      cases b <;> simp [ih dropped (by simpa using h)]

/-- Whether a parameter in theta is on the demand side: it is not in gamma. -/
def ThetaParameter.demand : ThetaParameter → Bool
  | .gamma _ => false
  | _ => true

/-- Elements of beta in theta. -/
def ThetaParameter.betas (l : List ThetaParameter) : List ℕ := l.filterMap fun
  | .beta k => some k
  | _ => none

theorem count_demand (f : Formulations R) (l : List ThetaParameter) :
    (l.filter ThetaParameter.demand).length ≤ (l.filter fun p => !droppedByDefault f p).length +
      ((ThetaParameter.betas l).filter fun k => droppedByDefault f (.beta k)).length := by
  induction l with
  | nil => simp [ThetaParameter.betas]
  | cons p l ih =>
    cases p with
    | nonlinear =>
      simp only [ThetaParameter.betas, ThetaParameter.demand, droppedByDefault, List.filter_cons, List.filterMap_cons, Bool.not_false, if_true,
        List.length_cons] at ih ⊢
      omega
    | gamma k =>
      simp only [ThetaParameter.betas, ThetaParameter.demand, List.filter_cons, List.filterMap_cons] at ih ⊢
      by_cases hd : droppedByDefault f (.gamma k) = true
      · simpa [hd] using ih
      · rw [Bool.not_eq_true] at hd
        simp only [hd, Bool.not_false, if_true, List.length_cons]
        simp only [Bool.false_eq_true, if_false]
        omega
    | beta k =>
      simp only [ThetaParameter.betas, ThetaParameter.demand, List.filter_cons, List.filterMap_cons, if_true, List.length_cons] at ih ⊢
      by_cases hd : droppedByDefault f (.beta k) = true
      · simp only [hd, Bool.not_true, Bool.false_eq_true, if_false, if_true, List.length_cons]
        omega
      · rw [Bool.not_eq_true] at hd
        simp only [hd, Bool.not_false, Bool.false_eq_true, if_false, if_true, List.length_cons]
        omega

/-- **C102** (order condition). By default, a problem that is created again has at least as many demand-side instruments as parameters on the demand
side: those in theta, and those in beta that are concentrated out. -/
theorem C102_order (f : Formulations R) (data : ColumnData R) (o : OptimalResults R) (hlength : o.demandInstruments.length = o.unfixed.length)
    (honce : (ThetaParameter.betas o.unfixed).Nodup) (htheta : ∀ k ∈ ThetaParameter.betas o.unfixed, o.eliminatedBeta k = false) :
    (o.unfixed.filter ThetaParameter.demand).length + ((Finset.range f.X1.length).filter fun k => o.eliminatedBeta k = true).card ≤
      (updatedZD f data o none).length := by
  have hkeep : (keepColumns o.demandInstruments (droppedIndex f o none)).length = (o.unfixed.filter fun p => !droppedByDefault f p).length := by
    rw [length_keepColumns _ _ (by simp [droppedIndex, hlength]), droppedIndex, List.filter_map, List.length_map]
    rfl
  have htrue : (trueColumns f.X1 (eliminatedEndogenous f.X1 pricesName o.eliminatedBeta) (overrideColumn data pricesName o.expectedPrices)).length =
      ((Finset.range f.X1.length).filter fun k =>
        holdsAt f.X1 (fun _ k => eliminatedEndogenous f.X1 pricesName o.eliminatedBeta k) k = true).card := by
    rw [trueColumns, List.length_map, length_filter_zipIdx f.X1 fun _ k => eliminatedEndogenous f.X1 pricesName o.eliminatedBeta k]
  have hexog := length_filter_columns f.X1 fun e => decide (pricesName ∉ e.symbols)
  rw [updatedZD, absorbColumns, List.length_map, supplement_eq, List.length_append, List.length_map, optimalDemand, List.length_append,
    List.length_append, List.length_map, hkeep, htrue, hexog]
  have hcount := count_demand f o.unfixed
  set dropped := (ThetaParameter.betas o.unfixed).filter fun k => droppedByDefault f (.beta k) with hdropped
  have hnodup : dropped.Nodup := honce.filter _
  have hcard : dropped.length = dropped.toFinset.card := (List.toFinset_card_of_nodup hnodup).symm
  set elim := (Finset.range f.X1.length).filter fun k => o.eliminatedBeta k = true with helim
  set alphas := (Finset.range f.X1.length).filter fun k =>
    holdsAt f.X1 (fun _ k => eliminatedEndogenous f.X1 pricesName o.eliminatedBeta k) k = true with halphas
  set exog := (Finset.range f.X1.length).filter fun k => holdsAt f.X1 (fun e _ => decide (pricesName ∉ e.symbols)) k = true with hexogdef
  have hsub : dropped.toFinset ∪ elim ⊆ alphas ∪ exog := by
    intro k hk
    rw [Finset.mem_union] at hk ⊢
    rcases hk with hk | hk
    · right
      rw [List.mem_toFinset, hdropped, List.mem_filter] at hk
      obtain ⟨-, hk⟩ := hk
      rw [droppedByDefault] at hk
      rw [hexogdef, Finset.mem_filter, Finset.mem_range]
      cases he : f.X1[k]? with
      | none => simp [he] at hk
      | some e =>
        refine ⟨(List.getElem?_eq_some_iff.1 he).1, ?_⟩
        rw [he] at hk
        simp only [Option.elim_some, Bool.and_eq_true] at hk
        rw [holdsAt, he]
        exact hk.1
    · rw [helim, Finset.mem_filter, Finset.mem_range] at hk
      obtain ⟨hk, hk'⟩ := hk
      have he : f.X1[k]? = some f.X1[k] := List.getElem?_eq_getElem hk
      by_cases hp : pricesName ∈ f.X1[k].symbols
      · left
        rw [halphas, Finset.mem_filter, Finset.mem_range]
        refine ⟨hk, ?_⟩
        rw [holdsAt, he, Option.elim_some, eliminatedEndogenous, he]
        simp [hk', hp]
      · right
        rw [hexogdef, Finset.mem_filter, Finset.mem_range]
        refine ⟨hk, ?_⟩
        rw [holdsAt, he]
        simp [hp]
  have hdisjoint : Disjoint dropped.toFinset elim := by
    rw [Finset.disjoint_left]
    intro k hk hk'
    rw [List.mem_toFinset, hdropped, List.mem_filter] at hk
    rw [helim, Finset.mem_filter] at hk'
    rw [htheta k hk.1] at hk'
    simp at hk'
  have h1 := Finset.card_le_card hsub
  rw [Finset.card_union_of_disjoint hdisjoint] at h1
  have h2 := Finset.card_union_le alphas exog
  omega

/-- A problem with one product, `X1 = 1 + prices` and `X3 = 1 + shares`, without fixed effects. -/
def endogenousCosts : Formulations Unit where
  X1 := [.num 1, .sym pricesName]
  X3 := [.num 1, .sym sharesName]
  absorbDemand := id
  absorbSupply := id

/-- **C102** fails for optimal instruments of supply. When a column of `X3` is in terms of market shares, that column, at the observed market
shares, is a supply-side instrument of the problem that is created again with optimal instruments, although it is not one of the original
problem, and although its place is taken by the column at expected market shares. Results for which no parameter is in theta are enough. -/
theorem C102_refuted :
    endogenousCosts.Accepted ∧
    ∃ (o : OptimalResults Unit), o.demandShifters = [] ∧
      (∀ data : ColumnData Unit, data sharesName ∈ updatedZS endogenousCosts data o none) ∧
      ∀ data : ColumnData Unit, data sharesName () = 1 / 2 → ∀ z ∈ problemZS endogenousCosts data [] true, z ≠ data sharesName := by
  refine ⟨⟨?_, ?_⟩, ⟨[], [], [], fun _ => 1, fun _ => 1 / 3, fun _ => true, fun _ => true, [], []⟩, rfl, ?_, ?_⟩
  · intro e he
    simp only [endogenousCosts, List.mem_cons, List.not_mem_nil, or_false] at he
    rcases he with rfl | rfl
    · simp [Expr.symbols]
    · simp [Expr.symbols, sharesName, pricesName]
  · intro e he
    simp only [endogenousCosts, List.mem_cons, List.not_mem_nil, or_false] at he
    rcases he with rfl | rfl
    · simp [Expr.symbols]
    · simp [Expr.symbols, sharesName, pricesName]
  · intro data
    simp only [updatedZS, absorbColumns, endogenousCosts, List.map_id_fun, id_eq, List.mem_append]
    right
    simp only [trueColumns, List.zipIdx_cons, List.zipIdx_nil, List.filter_true, List.map_cons, List.map_nil, List.mem_cons]
    right; left
    rfl
  · intro data hdata z hz
    rw [problemZS, if_neg (by simp [endogenousCosts]), if_pos rfl, absorbColumns, supplement_eq] at hz
    simp only [endogenousCosts, givenColumns, List.map_nil, List.nil_append, Expr.symbols, List.filter_cons, List.not_mem_nil, not_false_eq_true,
      decide_true, if_true, List.mem_singleton, not_true, decide_false, List.filter_nil, List.map_cons, id_eq] at hz
    intro h
    have : z () = 1 := by
      simp at hz
      rw [hz]; simp [evaluateColumn, Expr.eval]
    rw [h, hdata] at this
    norm_num at this

/-- Results for which a coefficient on prices is in theta, beside a nonlinear parameter, meet the hypotheses: the intercept is concentrated out. -/
example : 3 ≤ (updatedZD endogenousCosts (fun _ _ => 1)
    ⟨[.nonlinear, .beta 1], [fun _ => 2, fun _ => 3], [fun _ => 4, fun _ => 5], fun _ => 1, fun _ => 1 / 3, fun k => k = 0, fun _ => true, [], []⟩
    none).length := by
  refine le_trans (le_of_eq ?_) (C102_order _ _ _ rfl (by decide) (by decide))
  decide

end Formula
end Pyblp
