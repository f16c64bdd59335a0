import Verif.Model.RealizationSupply
import Verif.Props.Realizations
import Verif.Props.SupplyTangents

/-!
# C147: supply-side Jacobians behind optimal instruments
-/

set_option linter.unusedSectionVars false

namespace Pyblp

open Filter Topology

variable {ι : Type} [LinearOrder ι] {N : ℕ} {G K1 K2 : Type} {K3 : ℕ} [Fintype G] [DecidableEq G] [Fintype K1] [Fintype K2]
  {V W : Type} [Fintype V] [DecidableEq V] [Fintype W] [DecidableEq W] [DecidableEq K2] [DecidableEq K1]

section

variable {e : BootstrapEconomy ι N 1 G K1 K2 K3} {xi omega xiDraw omegaDraw : Fin N → ℝ} {expected : Option (Fin N → ℝ)} {constantCosts : Bool}
  {solve : DrawSolver e} {pool : Option ℕ} {events : List (RealizationEvent ι)}

lemma realizationTastes_eq (hv : Spec.DrawFormulasValid e) (t : ι) (T : Tastes (MarketRows e.ids t) (Fin (e.agents t)) K2 V W) (prices : Fin N → ℝ) :
    realizationTastes e t T prices = { T with X2 := fun (j : MarketRows e.ids t) k => e.x2 k j (prices j) } := by
  unfold realizationTastes
  have hX : (fun (j : MarketRows e.ids t) k => if e.has2 k = true then e.x2 k j (prices j) else e.x2 k j (e.prices j)) =
      fun (j : MarketRows e.ids t) k => e.x2 k j (prices j) := by
    funext j k
    split_ifs with hk
    · rfl
    · exact hv.x2 k (by simpa using hk) _ _ _
  exact congrArg (fun X => ({ T with X2 := X } : Tastes (MarketRows e.ids t) (Fin (e.agents t)) K2 V W)) hX

/-- In the market for Jacobians, shares depend on prices as in the model at drawn errors. -/
lemma sharesAt_realization (hv : Spec.DrawFormulasValid e) (h : RealizationSchedule pool (uniqueIds e.ids) events) (t : ι)
    [Nonempty (MarketRows e.ids t)] :
    sharesAt (e.market 0 t) (realizationCharacteristic (realizationEconomy e xi omega xiDraw omegaDraw)
      (computeRealization (realizationEconomy e xi omega xiDraw omegaDraw) expected constantCosts solve events) t) =
      Spec.realizedShares e xi xiDraw t := by
  set s := computeRealization (realizationEconomy e xi omega xiDraw omegaDraw) expected constantCosts solve events with hs
  have hd := C147_demand (xi := xi) (omega := omega) (xiDraw := xiDraw) (omegaDraw := omegaDraw) (expected := expected)
    (constantCosts := constantCosts) (solve := solve) hv h t
  funext x k
  unfold Spec.realizedShares
  rw [show sharesAt (e.market 0 t) (realizationCharacteristic (realizationEconomy e xi omega xiDraw omegaDraw) s t) x =
    computeShares (e.market 0 t) {} (updateDelta (realizationCharacteristic (realizationEconomy e xi omega xiDraw omegaDraw) s t) x)
      (updateMu (realizationCharacteristic (realizationEconomy e xi omega xiDraw omegaDraw) s t) x) from rfl]
  congr 1
  · funext j
    unfold updateDelta
    refine (congrArg (· + _) ((hd j).1)).trans ?_
    have hsum : ∑ k with e.has1 k = true, e.beta k * (e.x1 k j (x j) - e.x1 k j (s.prices j)) =
        ∑ k, e.beta k * (e.x1 k j (x j) - e.x1 k j (s.prices j)) := by
      rw [Finset.sum_filter]
      refine Finset.sum_congr rfl fun k _ => ?_
      split_ifs with hk
      · rfl
      · rw [hv.x1 k (by simpa using hk) j (x j) (s.prices j)]; ring
    refine (congrArg (_ + ·) hsum).trans ?_
    unfold Spec.realizedUtility
    simp only [mul_sub, Finset.sum_sub_distrib]
    ring
  · funext j a
    unfold updateMu
    refine Finset.sum_congr rfl fun k _ => ?_
    congr 1
    change (if e.has2 k = true then e.x2 k j (x j) else e.x2 k j (s.prices j)) = _
    split_ifs with hk
    · rfl
    · exact hv.x2 k (by simpa using hk) _ _ _

/-- **C147.** If prices of a realization satisfy first order conditions at drawn marginal costs, then drawn marginal costs are those that the
market for Jacobians implies: prices minus markups. -/
theorem C147_implied_costs (hv : Spec.DrawFormulasValid e) (h : RealizationSchedule pool (uniqueIds e.ids) events) (t : ι)
    [Nonempty (MarketRows e.ids t)] (hm : WellFormed (e.market 0 t)) (hsm : (drawCharacteristic e 0 t).Smooth)
    (hO : ∀ j, e.ownership t j j = 1) :
    let s := computeRealization (realizationEconomy e xi omega xiDraw omegaDraw) expected constantCosts solve events
    let c : Characteristic (MarketRows e.ids t) (Fin (e.agents t)) K1 K2 :=
      realizationCharacteristic (realizationEconomy e xi omega xiDraw omegaDraw) s t
    IsUnit (capitalDelta (e.market 0 t) c (e.ownership t)).det →
    (∀ j, Spec.FirstOrderCondition (Spec.realizedShares e xi xiDraw t) (e.ownership t j) (fun k => Spec.realizedCost e omega omegaDraw k)
      (fun k => s.prices k) j) →
    ∀ j : MarketRows e.ids t, Spec.realizedCost e omega omegaDraw j = s.prices j - computeEta (e.market 0 t) c (e.ownership t) (fun k => s.shares k) j := by
  intro s c hdet hfoc j
  have hsh : sharesAt (e.market 0 t) c = Spec.realizedShares e xi xiDraw t := sharesAt_realization hv h t
  have hc : c.Smooth := ⟨hsm.x1, hsm.d1, hsm.x2, hsm.d2⟩
  have hs : ∀ k : MarketRows e.ids t, s.shares k = sharesAt (e.market 0 t) c c.x0 k := by
    intro k
    rw [hsh]
    exact (C147_demand (xi := xi) (omega := omega) (xiDraw := xiDraw) (omegaDraw := omegaDraw) (expected := expected)
      (constantCosts := constantCosts) (solve := solve) hv h t k).2
  have := (C30_costs (e.market 0 t) hm c hc (e.ownership t) hO (fun k => s.shares k) hs hdet
    (fun k => Spec.realizedCost e omega omegaDraw k)).mp (by rw [hsh]; exact hfoc)
  exact congrFun this j

/-- **C147.** The supply-side Jacobian of a realization is how the unobserved part of marginal costs has to change with a parameter so that prices
and shares of the realization continue to be explained, for each kind of parameter, if marginal costs are linear or drawn ones are those that
explain prices (`C147_implied_costs`). -/
theorem C147_supply_jacobian (hv : Spec.DrawFormulasValid e) (h : RealizationSchedule pool (uniqueIds e.ids) events) (t : ι)
    [Nonempty (MarketRows e.ids t)] (hm : WellFormed (e.market 0 t)) (hw : ∀ a, 0 ≤ (e.market 0 t).weights a)
    (hoff : ∀ j, ∃ a, 0 < (e.market 0 t).weights a ∧ Offered (e.market 0 t) {} a j)
    (T : Tastes (MarketRows e.ids t) (Fin (e.agents t)) K2 V W) (sigma : K2 → V → ℝ) (pi : K2 → W → ℝ)
    (hcoef : ∀ k a j, e.coef 0 t k a j = randomCoefficient T sigma pi k a j) (p : ThetaParam G K1 K2 (Fin K3) V W)
    (xiInverse deltaInverse : MarketRows e.ids t → MarketRows e.ids t → ℝ) :
    let s := computeRealization (realizationEconomy e xi omega xiDraw omegaDraw) expected constantCosts solve events
    let T' : Tastes (MarketRows e.ids t) (Fin (e.agents t)) K2 V W := { T with X2 := fun (j : MarketRows e.ids t) k => e.x2 k j (s.prices j) }
    let X1 := fun (j : MarketRows e.ids t) k => e.x1 k j (s.prices j)
    let X3 := fun (j : MarketRows e.ids t) k => e.x3 k j (s.shares j)
    let c : Characteristic (MarketRows e.ids t) (Fin (e.agents t)) K1 K2 :=
      realizationCharacteristic (realizationEconomy e xi omega xiDraw omegaDraw) s t
    let delta := fun j : MarketRows e.ids t => s.delta j
    let q : TangentParam (MarketRows e.ids t) G K2 V W := p.tangent X1 X3
    Spec.Fits q (e.market 0 t) → RhoInterior (e.market 0 t) q →
    (∀ j l, ∑ k, xiInverse j k * sharesByXiJacobian (e.market 0 t) (computeShares (e.market 0 t) {} delta (computeMu T' sigma pi))
      (computeProbabilities (e.market 0 t) {} delta (computeMu T' sigma pi)) (computeConditionals (e.market 0 t) {} delta (computeMu T' sigma pi)) k l =
      if j = l then 1 else 0) →
    (∀ j l, ∑ k, deltaInverse j k * capitalDelta (e.market 0 t) c (e.ownership t) k l = if j = l then 1 else 0) →
    ∀ d : ℝ → MarketRows e.ids t → ℝ, d 0 = delta →
      (∀ᶠ x in 𝓝 (0 : ℝ), Spec.sharesOf (e.market 0 t) T' sigma pi {} q (x, d x) = fun j : MarketRows e.ids t => s.shares j) →
      ∀ j : MarketRows e.ids t,
      (e.logCosts = true → Spec.realizedCost e omega omegaDraw j =
        s.prices j - computeEta (e.market 0 t) c (e.ownership t) (fun k => s.shares k) j) →
      ∃ y : ℝ → ℝ,
        (∀ᶠ x in 𝓝 (0 : ℝ), Spec.omegaAlong (e.market 0 t) c T' sigma pi e.beta e.gamma X1 X3 (e.ownership t)
          (fun k : MarketRows e.ids t => s.shares k) e.logCosts (⊥, ⊤) p (d x) x j = some (y x)) ∧
        HasDerivAt y (realizationOmegaJacobian (realizationEconomy e xi omega xiDraw omegaDraw) s t T sigma pi xiInverse deltaInverse p j) 0 := by
  intro s T' X1 X3 c delta q hp hint hxi hdelta d hd0 hd j hcost
  have hT : realizationTastes (realizationEconomy e xi omega xiDraw omegaDraw) t T s.prices = T' := realizationTastes_eq hv t T s.prices
  have hs : (fun j : MarketRows e.ids t => s.shares j) = computeShares (e.market 0 t) {} delta (computeMu T' sigma pi) := by
    funext k
    have h1 := (C147_demand (xi := xi) (omega := omega) (xiDraw := xiDraw) (omegaDraw := omegaDraw) (expected := expected)
      (constantCosts := constantCosts) (solve := solve) hv h t)
    refine (h1 k).2.trans ?_
    unfold Spec.realizedShares
    congr 1
    · funext l; exact (h1 l).1.symm
    · funext l a
      unfold computeMu
      exact Finset.sum_congr rfl fun q _ => by rw [hcoef]; rfl
  have hc : priceVariable c T' sigma pi e.beta delta = c := by
    have : (fun k a j => randomCoefficient T' sigma pi k a j) = c.coef := by
      funext k a j
      exact (hcoef k a j).symm
    unfold priceVariable
    rw [this]
    rfl
  have hnow : costsNow (e.market 0 t) c T' sigma pi e.beta delta (e.ownership t) (fun k : MarketRows e.ids t => s.shares k) j =
      s.prices j - computeEta (e.market 0 t) c (e.ownership t) (fun k => s.shares k) j := by
    unfold costsNow
    rw [hc]
    rfl
  have hpos : e.logCosts = true → 0 < costsNow (e.market 0 t) c T' sigma pi e.beta delta (e.ownership t)
      (fun k : MarketRows e.ids t => s.shares k) j := by
    intro hlog
    rw [hnow, ← hcost hlog]
    unfold Spec.realizedCost
    rw [if_pos hlog]
    exact Real.exp_pos _
  obtain ⟨y, hy, hder⟩ := C85_omega_by_theta (e.market 0 t) hm c T' (fun _ _ => rfl) sigma pi e.beta e.gamma delta X1 X3 (e.ownership t)
    (fun k : MarketRows e.ids t => s.shares k) p hp hw hoff hint e.logCosts (⊥, ⊤) (fun _ => 0) xiInverse deltaInverse hxi (by rw [hc]; exact hdelta) d
    ⟨hd0, by rw [hs] at hd; exact hd⟩ j (EReal.bot_lt_coe _) (EReal.coe_lt_top _) hpos
  refine ⟨y, hy, hder.congr_deriv ?_⟩
  have hclip : clippedCosts (⊥, ⊤) (fun k : MarketRows e.ids t => c.x0 k - computeEta (e.market 0 t) c (e.ownership t) (fun k => s.shares k) k) j = false := by
    unfold clippedCosts
    simp
  unfold omegaJacobian realizationOmegaJacobian clippedJacobian
  simp only [hc]
  rw [hT]
  simp only [hclip, Bool.false_eq_true, if_false]
  unfold omegaByTheta
  split
  · rfl
  · by_cases hlog : e.logCosts = true
    · have hc' := hcost hlog
      have hpos' := hpos hlog
      rw [hnow] at hpos'
      have ht : (tildeCosts e.logCosts (⊥, ⊤) (fun k : MarketRows e.ids t =>
          c.x0 k - computeEta (e.market 0 t) c (e.ownership t) (fun k => s.shares k) k) j).getD 0 =
          Real.log (s.prices j - computeEta (e.market 0 t) c (e.ownership t) (fun k => s.shares k) j) := by
        unfold tildeCosts
        rw [clipCosts_inside _ _ _ bot_le le_top]
        simp only [hlog, if_true]
        refine (congrArg (Option.getD · 0) (if_neg (not_le.mpr hpos'))).trans ?_
        rfl
      have hlog' : (realizationEconomy e xi omega xiDraw omegaDraw).logCosts = true := hlog
      rw [if_pos hlog, if_pos hlog']
      refine congrArg₂ (fun a b : ℝ => a / b) ?_ ?_
      · rcases hn : (e.market 0 t).nesting with _ | n
        all_goals
          have hn' : ((realizationEconomy e xi omega xiDraw omegaDraw).market 0 t).nesting = _ := hn
          simp only [hn']
          rfl
      refine (congrArg Real.exp ht).trans ?_
      rw [Real.exp_log hpos', ← hc']
      unfold Spec.realizedCost
      rw [if_pos hlog]
      rfl
    · have hlog' : ¬(realizationEconomy e xi omega xiDraw omegaDraw).logCosts = true := hlog
      rw [if_neg hlog, if_neg hlog']
      rcases hn : (e.market 0 t).nesting with _ | n
      all_goals
        have hn' : ((realizationEconomy e xi omega xiDraw omegaDraw).market 0 t).nesting = _ := hn
        simp only [hn']
        rfl

/-- **C147.** If prices are solved for, the iteration of a market has arrived at a fixed point and firms care about each other's profits
symmetrically, then drawn marginal costs are those that explain prices of the realization, as `C147_supply_jacobian` needs. -/
theorem C147_equilibrium_costs (hv : Spec.DrawFormulasValid e) (h : RealizationSchedule pool (uniqueIds e.ids) events) {given : Option (Fin N → ℝ)}
    {fitted : Fin N → ℝ} (hplan : plannedPrices given K3 e.has3 fitted = none) (t : ι) [Nonempty (MarketRows e.ids t)]
    (hm : WellFormed (e.market 0 t)) (hs : (drawCharacteristic e 0 t).Smooth) (hO : ∀ j, e.ownership t j j = 1)
    (hsym : ∀ j k, e.ownership t j k = e.ownership t k j)
    (p : MarketRows e.ids t → ℝ) (hsolve : p = solve 0 t (drawContraction (realizationEconomy e xi omega xiDraw omegaDraw) 0 t constantCosts) fun j => e.prices j)
    (hfixed : drawContraction (realizationEconomy e xi omega xiDraw omegaDraw) 0 t constantCosts p = p)
    (hl : ∀ j, capitalLamda (e.market 0 t)
      (probabilitiesAt (e.market 0 t) (drawCharacteristic (realizationEconomy e xi omega xiDraw omegaDraw) 0 t) p)
      (utilityDerivatives (e.market 0 t) (drawCharacteristic (realizationEconomy e xi omega xiDraw omegaDraw) 0 t) p) j ≠ 0) :
    let s := computeRealization (realizationEconomy e xi omega xiDraw omegaDraw) none constantCosts solve events
    let c : Characteristic (MarketRows e.ids t) (Fin (e.agents t)) K1 K2 :=
      realizationCharacteristic (realizationEconomy e xi omega xiDraw omegaDraw) s t
    IsUnit (capitalDelta (e.market 0 t) c (e.ownership t)).det →
    ∀ j : MarketRows e.ids t,
      Spec.realizedCost e omega omegaDraw j = s.prices j - computeEta (e.market 0 t) c (e.ownership t) (fun k => s.shares k) j := by
  intro s c hdet
  refine C147_implied_costs hv h t hm hs hO hdet fun j => ?_
  have := C147_supply hv h hplan t hm hs hO p hsolve hfixed hl j
  rw [show e.ownership t j = fun k => e.ownership t k j from funext fun k => hsym j k]
  exact this

end

/-! ## A monopolist with logarithmic costs -/

/-- Estimates for a monopolist as before, but with logarithmic costs. -/
noncomputable def logMonopolist : BootstrapEconomy Unit 1 1 Unit Unit (Fin 0) 1 :=
  { estimatedMonopolist with
    tildeCosts := fun _ => 1
    logCosts := true }

instance : Nonempty (MarketRows logMonopolist.ids ()) := ⟨⟨0, rfl⟩⟩

instance : Subsingleton (MarketRows logMonopolist.ids ()) := inferInstanceAs (Subsingleton (MarketRows (monopolist 3).ids ()))

lemma logMonopolist_valid : Spec.DrawFormulasValid logMonopolist where
  x1 := fun k h => by cases h
  x2 := fun k => k.elim0
  x3 := fun _ _ _ _ _ => rfl

/-- Arrays of the realization at which the expected price is three, with a drawn cost error of `w`. -/
noncomputable def logState (w : ℝ) : RealizationState Unit 1 :=
  computeRealization (realizationEconomy logMonopolist (fun _ => 2) (fun _ => 3) (fun _ => -1) fun _ => w) (some fun _ => 3) true (fun _ _ _ _ _ => 0)
    ((uniqueIds logMonopolist.ids).flatMap fun t => [.build t, .write t])

/-- How utility depends on prices in its market for Jacobians. -/
noncomputable def logCharacteristic (w : ℝ) : Characteristic (MarketRows logMonopolist.ids ()) (Fin (logMonopolist.agents ())) Unit (Fin 0) :=
  realizationCharacteristic (realizationEconomy logMonopolist (fun _ => 2) (fun _ => 3) (fun _ => -1) fun _ => w) (logState w) ()

/-- The only agent. -/
def logAgent : Fin (logMonopolist.agents ()) := (0 : Fin 1)

lemma logMonopolist_sum (f : Fin (logMonopolist.agents ()) → ℝ) : ∑ i, f i = f logAgent := Fin.sum_univ_one f

lemma logMonopolist_probability (delta : MarketRows logMonopolist.ids () → ℝ) (mu : MarketRows logMonopolist.ids () → Fin (logMonopolist.agents ()) → ℝ)
    (hd : ∀ j, delta j = 0) (hmu : ∀ j i, mu j i = 0) (j : MarketRows logMonopolist.ids ()) (i : Fin (logMonopolist.agents ())) :
    computeProbabilities (logMonopolist.market 0 ()) {} delta mu j i = 1 / 2 := by
  rw [computeProbabilities_plain _ _ _ _ rfl, multiplier_one _ _ rfl rfl rfl (fun _ => rfl)]
  rw [show delta = fun _ => 0 from funext hd, show mu = fun _ _ => 0 from funext fun j => funext (hmu j)]
  unfold Spec.logit
  rw [Fintype.sum_subsingleton _ j]
  simp [logMonopolist, estimatedMonopolist, drawnMonopolist, monopolist]
  norm_num

lemma logState_values (w : ℝ) (j : MarketRows logMonopolist.ids ()) : (logState w).prices j = 3 ∧ (logState w).delta j = 0 ∧ (logState w).shares j = 1 / 2 := by
  have hp : (logState w).prices j = 3 := C147_prices (e := logMonopolist) (pool := none) (fun _ => 3) rfl _
  have hd := C147_demand (e := logMonopolist) (xi := fun _ => 2) (omega := fun _ => 3) (xiDraw := fun _ => -1) (omegaDraw := fun _ => w)
    (expected := some fun _ => 3) (constantCosts := true) (solve := fun _ _ _ _ _ => 0) (pool := none) logMonopolist_valid rfl () j
  have hu : Spec.realizedUtility logMonopolist (fun _ => 2) (fun _ => -1) j 3 = 0 := by
    simp [Spec.realizedUtility, logMonopolist, estimatedMonopolist, drawnMonopolist, monopolist]
    norm_num
  refine ⟨hp, hd.1.trans ?_, hd.2.trans ?_⟩
  · rw [show (computeRealization (realizationEconomy logMonopolist (fun _ => 2) (fun _ => 3) (fun _ => -1) fun _ => w) (some fun _ => 3) true
      (fun _ _ _ _ _ => 0) ((uniqueIds logMonopolist.ids).flatMap fun t => [.build t, .write t])).prices j = 3 from hp]
    exact hu
  · unfold Spec.realizedShares computeShares
    rw [logMonopolist_sum]
    refine (congrArg (· * _) (logMonopolist_probability _ _ ?_ ?_ j logAgent)).trans ?_
    rotate_left 2
    · simp [logMonopolist, estimatedMonopolist, drawnMonopolist, monopolist]
    · intro l
      rw [show l = j from Subsingleton.elim _ _]
      exact (congrArg _ hp).trans hu
    · intro l i
      exact Finset.sum_empty

/-- With a share of one half and utility that falls by `a` in the price, the markup is two divided by `a`. -/
lemma logMonopolist_markup (c : Characteristic (MarketRows logMonopolist.ids ()) (Fin (logMonopolist.agents ())) Unit (Fin 0)) (a : ℝ) (ha : a ≠ 0)
    (hP : ∀ j i, probabilitiesAt (logMonopolist.market 0 ()) c c.x0 j i = 1 / 2)
    (hU : ∀ j i, utilityDerivatives (logMonopolist.market 0 ()) c c.x0 j i = -a) (j : MarketRows logMonopolist.ids ()) :
    (∀ j l, ∑ k, (fun _ _ => 4 / a : MarketRows logMonopolist.ids () → MarketRows logMonopolist.ids () → ℝ) j k *
      capitalDelta (logMonopolist.market 0 ()) c (logMonopolist.ownership ()) k l = if j = l then 1 else 0) ∧
    computeEta (logMonopolist.market 0 ()) c (logMonopolist.ownership ()) (fun _ => 1 / 2) j = 2 / a := by
  have hD : ∀ k l, capitalDelta (logMonopolist.market 0 ()) c (logMonopolist.ownership ()) k l = a / 4 := by
    intro k l
    unfold capitalDelta capitalGamma capitalLamda
    rw [show l = k from Subsingleton.elim _ _]
    simp only [Matrix.of_apply, if_true]
    change ((∑ i, _) - ∑ i, _) * _ = _
    rw [logMonopolist_sum, logMonopolist_sum, hP, hU]
    change (1 / 2 * (1 * (1 / 2 * -a)) - 1 / 2 * -a * 1) * 1 = a / 4
    ring
  have hinv : ∀ j l, ∑ k, (fun _ _ => 4 / a : MarketRows logMonopolist.ids () → MarketRows logMonopolist.ids () → ℝ) j k *
      capitalDelta (logMonopolist.market 0 ()) c (logMonopolist.ownership ()) k l = if j = l then 1 else 0 := by
    intro j l
    rw [Fintype.sum_subsingleton _ j, hD, if_pos (Subsingleton.elim _ _)]
    field_simp
  refine ⟨hinv, ?_⟩
  have h1 : (Matrix.of fun _ _ => 4 / a : Matrix (MarketRows logMonopolist.ids ()) (MarketRows logMonopolist.ids ()) ℝ) *
      capitalDelta (logMonopolist.market 0 ()) c (logMonopolist.ownership ()) = 1 := by
    ext j l
    rw [Matrix.mul_apply, Matrix.one_apply]
    exact hinv j l
  unfold computeEta
  rw [Matrix.inv_eq_left_inv h1]
  simp only [Matrix.mulVec, dotProduct, Matrix.of_apply]
  rw [Fintype.sum_subsingleton _ j]
  field_simp
  norm_num

/-- There are no random coefficients. -/
def logTastes : Tastes (MarketRows logMonopolist.ids ()) (Fin (logMonopolist.agents ())) (Fin 0) Empty Empty :=
  ⟨fun _ k => k.elim0, fun _ v => v.elim, fun _ v => v.elim, fun k => k.elim0⟩

/-- **C147.** Refutation for logarithmic costs when prices are given: a monopolist with an expected price of three and a share of one half, for
which utility falls by one in the price, has a markup of two, so the marginal cost that explains the price is one. When the price coefficient
changes, the unobserved part of the cost has to change by minus two for the price and share to be explained. But the Jacobian is minus two divided
by the drawn marginal cost, which has nothing to do with the given price. -/
theorem C147_given_prices_refuted (w : ℝ) :
    let e := realizationEconomy logMonopolist (fun _ => 2) (fun _ => 3) (fun _ => -1) fun _ => w
    let s := logState w
    let X1 := fun (j : MarketRows logMonopolist.ids ()) k => logMonopolist.x1 k j (s.prices j)
    let X3 := fun (j : MarketRows logMonopolist.ids ()) k => logMonopolist.x3 k j (s.shares j)
    let p : ThetaParam Unit Unit (Fin 0) (Fin 1) Empty Empty := .beta ()
    let j : MarketRows logMonopolist.ids () := ⟨0, rfl⟩
    let delta := fun j : MarketRows logMonopolist.ids () => s.delta j
    s.prices 0 = 3 ∧ s.shares 0 = 1 / 2 ∧
    ∃ xiInverse deltaInverse : MarketRows logMonopolist.ids () → MarketRows logMonopolist.ids () → ℝ,
      (∀ j l, ∑ k, xiInverse j k * sharesByXiJacobian (logMonopolist.market 0 ())
        (computeShares (logMonopolist.market 0 ()) {} delta (computeMu logTastes (fun k => k.elim0) (fun k => k.elim0)))
        (computeProbabilities (logMonopolist.market 0 ()) {} delta (computeMu logTastes (fun k => k.elim0) (fun k => k.elim0)))
        (computeConditionals (logMonopolist.market 0 ()) {} delta (computeMu logTastes (fun k => k.elim0) (fun k => k.elim0))) k l =
        if j = l then 1 else 0) ∧
      (∀ j l, ∑ k, deltaInverse j k * capitalDelta (logMonopolist.market 0 ()) (logCharacteristic w) (logMonopolist.ownership ()) k l =
        if j = l then 1 else 0) ∧
    ∃ d : ℝ → MarketRows logMonopolist.ids () → ℝ, d 0 = delta ∧
      (∀ᶠ x in 𝓝 (0 : ℝ), Spec.sharesOf (logMonopolist.market 0 ()) logTastes (fun k => k.elim0) (fun k => k.elim0) {}
        (p.tangent X1 X3) (x, d x) = fun j : MarketRows logMonopolist.ids () => s.shares j) ∧
      ∃ y : ℝ → ℝ,
        (∀ᶠ x in 𝓝 (0 : ℝ), Spec.omegaAlong (logMonopolist.market 0 ()) (logCharacteristic w) logTastes (fun k => k.elim0) (fun k => k.elim0)
          logMonopolist.beta logMonopolist.gamma X1 X3 (logMonopolist.ownership ()) (fun k : MarketRows logMonopolist.ids () => s.shares k)
          logMonopolist.logCosts (⊥, ⊤) p (d x) x j = some (y x)) ∧
        HasDerivAt y (-2) 0 ∧
        realizationOmegaJacobian e s () logTastes (fun k => k.elim0) (fun k => k.elim0) xiInverse deltaInverse p j = -2 / Real.exp (w - 2) := by
  intro e s X1 X3 p j delta
  obtain ⟨hp0, hd0, hs0⟩ := logState_values w j
  have hp : ∀ k : MarketRows logMonopolist.ids (), s.prices k = 3 := fun k => (logState_values w k).1
  have hdl : ∀ k : MarketRows logMonopolist.ids (), s.delta k = 0 := fun k => (logState_values w k).2.1
  have hsh : ∀ k : MarketRows logMonopolist.ids (), s.shares k = 1 / 2 := fun k => (logState_values w k).2.2
  have hw : ∀ a, 0 ≤ (logMonopolist.market 0 ()).weights a := fun _ => zero_le_one
  have hoff : ∀ j, ∃ a, 0 < (logMonopolist.market 0 ()).weights a ∧ Offered (logMonopolist.market 0 ()) {} a j := fun j =>
    ⟨logAgent, one_pos, ⟨by simp, rfl, by intro a ha; cases ha⟩⟩
  have hm : WellFormed (logMonopolist.market 0 ()) := monopolist_wellFormed 3
  set mu := computeMu logTastes (fun k => k.elim0) (fun k => k.elim0) with hmu
  have hmu0 : ∀ j i, mu j i = 0 := fun _ _ => Finset.sum_empty
  have hdelta0 : delta = fun _ => 0 := funext hdl
  have hT : realizationTastes e () logTastes s.prices = logTastes := by
    unfold realizationTastes
    exact congrArg (fun X => ({ logTastes with X2 := X } :
      Tastes (MarketRows logMonopolist.ids ()) (Fin (logMonopolist.agents ())) (Fin 0) Empty Empty)) (funext fun _ => funext fun k => k.elim0)
  have hdet := C84_nonsingular (logMonopolist.market 0 ()) hm true delta mu hw hoff
  obtain ⟨I, hI⟩ : ∃ I : Matrix (MarketRows logMonopolist.ids ()) (MarketRows logMonopolist.ids ()) ℝ,
      I * Matrix.of (sharesByXiJacobian (logMonopolist.market 0 ()) (computeShares (logMonopolist.market 0 ()) {} delta mu)
        (computeProbabilities (logMonopolist.market 0 ()) {} delta mu) (computeConditionals (logMonopolist.market 0 ()) {} delta mu)) = 1 :=
    ⟨_, Matrix.nonsing_inv_mul _ (isUnit_iff_ne_zero.mpr hdet)⟩
  have hxi : ∀ j l, ∑ k, I j k * sharesByXiJacobian (logMonopolist.market 0 ()) (computeShares (logMonopolist.market 0 ()) {} delta mu)
      (computeProbabilities (logMonopolist.market 0 ()) {} delta mu)
      (computeConditionals (logMonopolist.market 0 ()) {} delta mu) k l = if j = l then 1 else 0 := by
    intro j l
    have h := congrFun (congrFun hI j) l
    rw [Matrix.mul_apply, Matrix.one_apply] at h
    exact h
  have hX2 : ∀ j k, logTastes.X2 j k = (logCharacteristic w).x2 k j ((logCharacteristic w).x0 j) := fun _ k => k.elim0
  have hc : priceVariable (logCharacteristic w) logTastes (fun k => k.elim0) (fun k => k.elim0) logMonopolist.beta delta = logCharacteristic w := by
    have : (fun k a j => randomCoefficient logTastes (fun k => k.elim0) (fun k => k.elim0) k a j) = (logCharacteristic w).coef :=
      funext fun k => k.elim0
    unfold priceVariable
    rw [this]
    rfl
  -- the curve of mean utilities
  have hshift : ∀ x k, Spec.shiftDelta (p.tangent X1 X3 : TangentParam (MarketRows logMonopolist.ids ()) Unit (Fin 0) Empty Empty)
      (fun _ => -(3 * x)) x k = 0 := by
    intro x k
    change -(3 * x) + x * s.prices k = 0
    rw [hp]
    ring
  have hcurve : ∀ x, Spec.sharesOf (logMonopolist.market 0 ()) logTastes (fun k => k.elim0) (fun k => k.elim0) {}
        (p.tangent X1 X3) (x, fun _ => -(3 * x)) = fun j : MarketRows logMonopolist.ids () => s.shares j := by
    intro x
    funext k
    rw [hsh]
    unfold Spec.sharesOf computeShares
    rw [logMonopolist_sum]
    refine (congrArg (· * _) (logMonopolist_probability _ _ (hshift x) (fun _ _ => Finset.sum_empty) k logAgent)).trans ?_
    change 1 / 2 * 1 = (1 / 2 : ℝ)
    norm_num
  have hsolves : SolvesNear (logMonopolist.market 0 ()) logTastes (fun k => k.elim0) (fun k => k.elim0) true delta (p.tangent X1 X3)
      fun x _ => -(3 * x) := by
    refine ⟨by rw [hdelta0]; funext _; simp, Eventually.of_forall fun x => (hcurve x).trans ?_⟩
    funext k
    rw [hsh]
    unfold computeShares
    rw [logMonopolist_sum]
    refine Eq.symm ((congrArg (· * _) (logMonopolist_probability _ _ hdl (fun _ _ => Finset.sum_empty) k logAgent)).trans ?_)
    change 1 / 2 * 1 = (1 / 2 : ℝ)
    norm_num
  -- markups along it
  have hmarkup : ∀ x : ℝ, x ≠ 1 → ∀ k,
      (∀ j l, ∑ k, (fun _ _ => 4 / (1 - x) : MarketRows logMonopolist.ids () → MarketRows logMonopolist.ids () → ℝ) j k *
        capitalDelta (logMonopolist.market 0 ()) (Spec.pricesAlong (logCharacteristic w) logTastes (fun k => k.elim0) (fun k => k.elim0)
          logMonopolist.beta X1 X3 p (fun _ => -(3 * x)) x) (logMonopolist.ownership ()) k l = if j = l then 1 else 0) ∧
      computeEta (logMonopolist.market 0 ()) (Spec.pricesAlong (logCharacteristic w) logTastes (fun k => k.elim0) (fun k => k.elim0)
        logMonopolist.beta X1 X3 p (fun _ => -(3 * x)) x) (logMonopolist.ownership ()) (fun _ => 1 / 2) k = 2 / (1 - x) := by
    intro x hx k
    refine logMonopolist_markup _ (1 - x) (sub_ne_zero.mpr hx.symm) (fun j i => ?_) (fun j i => ?_) k
    · refine (probabilitiesAt_prices (logMonopolist.market 0 ()) (logCharacteristic w) logTastes hX2 (fun k => k.elim0) (fun k => k.elim0)
        logMonopolist.beta X1 X3 p (fun _ => -(3 * x)) x j i).trans ?_
      exact logMonopolist_probability _ _ (hshift x) (fun _ _ => Finset.sum_empty) j i
    · simp [utilityDerivatives, Spec.pricesAlong, priceVariable, logCharacteristic, realizationCharacteristic, realizationEconomy, drawCharacteristic,
        logMonopolist, estimatedMonopolist, drawnMonopolist, monopolist, Spec.shiftBeta, p]
      try ring
  have hcosts : ∀ x : ℝ, x ≠ 1 → Spec.costsAlong (logMonopolist.market 0 ()) (logCharacteristic w) logTastes (fun k => k.elim0) (fun k => k.elim0)
      logMonopolist.beta X1 X3 (logMonopolist.ownership ()) (fun k : MarketRows logMonopolist.ids () => s.shares k) p (fun _ => -(3 * x)) x j =
      3 - 2 / (1 - x) := by
    intro x hx
    rw [show (fun k : MarketRows logMonopolist.ids () => s.shares k) = fun _ => 1 / 2 from funext hsh]
    refine congrArg₂ (fun a b : ℝ => a - b) (hp j) ?_
    exact (hmarkup x hx j).2
  have hd0' : (fun _ => -(3 * (0 : ℝ)) : MarketRows logMonopolist.ids () → ℝ) = delta := hsolves.1
  have hzero : Spec.pricesAlong (logCharacteristic w) logTastes (fun k => k.elim0) (fun k => k.elim0)
      logMonopolist.beta X1 X3 p (fun _ => -(3 * (0 : ℝ))) 0 = logCharacteristic w :=
    (market_shift_zero (logMonopolist.market 0 ()) (logCharacteristic w) logTastes (fun k => k.elim0) (fun k => k.elim0) logMonopolist.beta delta X1 X3 p
      (fun x _ => -(3 * x)) hd0').2.trans hc
  have hinv : ∀ j l, ∑ k, (fun _ _ => 4 : MarketRows logMonopolist.ids () → MarketRows logMonopolist.ids () → ℝ) j k *
      capitalDelta (logMonopolist.market 0 ()) (logCharacteristic w) (logMonopolist.ownership ()) k l = if j = l then 1 else 0 := by
    have := (hmarkup 0 zero_ne_one j).1
    rw [hzero] at this
    simpa using this
  have hnear : ∀ᶠ x in 𝓝 (0 : ℝ), x ≠ 1 ∧ 0 < 3 - 2 / (1 - x) := by
    refine (eventually_ne_nhds zero_ne_one).and ?_
    have hcont : ContinuousAt (fun x : ℝ => 3 - 2 / (1 - x)) 0 :=
      continuousAt_const.sub (continuousAt_const.div (continuousAt_const.sub continuousAt_id) (by norm_num))
    exact continuousAt_const.eventually_lt hcont (by norm_num)
  have hderiv : HasDerivAt (fun x : ℝ => 3 - 2 / (1 - x)) (-2) 0 := by
    have h1 : HasDerivAt (fun x : ℝ => 1 - x) (-1) 0 := (hasDerivAt_id' (0 : ℝ)).const_sub 1
    have h2 := ((hasDerivAt_const (0 : ℝ) (2 : ℝ)).fun_div h1 (by norm_num)).const_sub 3
    exact h2.congr_deriv (by norm_num)
  refine ⟨hp0, hs0, I, fun _ _ => 4, hxi, hinv, fun x _ => -(3 * x), hd0', Eventually.of_forall hcurve,
    fun x => Real.log (3 - 2 / (1 - x)) - ∑ k, X3 j k * logMonopolist.gamma k, ?_, ?_, ?_⟩
  · filter_upwards [hnear] with x hx
    unfold Spec.omegaAlong tildeCosts
    rw [clipCosts_inside _ _ _ bot_le le_top, hcosts x hx.1]
    change Option.map _ (if 3 - 2 / (1 - x) ≤ 0 then none else some (Real.log (3 - 2 / (1 - x)))) = _
    rw [if_neg (not_le.mpr hx.2)]
    rfl
  · have := (hderiv.log (by norm_num)).sub_const (∑ k, X3 j k * logMonopolist.gamma k)
    exact this.congr_deriv (by norm_num)
  · have hcd := hasDerivAt_costsAlong (logMonopolist.market 0 ()) hm (logCharacteristic w) logTastes hX2 (fun k => k.elim0) (fun k => k.elim0)
      logMonopolist.beta delta X1 X3 (logMonopolist.ownership ()) (fun k : MarketRows logMonopolist.ids () => s.shares k) p (fun n hn => by cases hn) hw hoff
      (fun n hn => by cases hn) I (fun _ _ => 4) hxi (by rw [hc]; exact hinv) (fun x _ => -(3 * x)) hsolves j
    have hu := hcd.unique (hderiv.congr_of_eventuallyEq (by filter_upwards [hnear] with x hx; exact hcosts x hx.1))
    rw [hc] at hu
    unfold realizationOmegaJacobian
    rw [hT]
    refine congrArg₂ (fun a b : ℝ => a / b) hu ?_
    change Real.exp (1 - 3 + w) = Real.exp (w - 2)
    congr 1
    ring

/-- Non-vacuity of `C147_supply_jacobian`: with a drawn error of two, the drawn marginal cost of one explains the price, and the Jacobian is minus two. -/
example : Spec.realizedCost logMonopolist (fun _ => 3) (fun _ => 2) 0 =
      (logState 2).prices 0 - computeEta (logMonopolist.market 0 ()) (logCharacteristic 2) (logMonopolist.ownership ())
        (fun k : MarketRows logMonopolist.ids () => (logState 2).shares k) ⟨0, rfl⟩ ∧
    ∃ xiInverse deltaInverse : MarketRows logMonopolist.ids () → MarketRows logMonopolist.ids () → ℝ,
      realizationOmegaJacobian (realizationEconomy logMonopolist (fun _ => 2) (fun _ => 3) (fun _ => -1) fun _ => 2) (logState 2) () logTastes
        (fun k => k.elim0) (fun k => k.elim0) xiInverse deltaInverse (.beta ()) ⟨0, rfl⟩ = -2 := by
  obtain ⟨h1, -, I, D, -, -, d, -, -, y, -, -, h⟩ := C147_given_prices_refuted 2
  refine ⟨?_, I, D, h.trans (by norm_num)⟩
  have hm := (logMonopolist_markup (logCharacteristic 2) 1 one_ne_zero (fun j i => ?_) (fun j i => ?_) ⟨0, rfl⟩).2
  · rw [h1, show (fun k : MarketRows logMonopolist.ids () => (logState 2).shares k) = fun _ => 1 / 2 from funext fun k => (logState_values 2 k).2.2, hm]
    simp [Spec.realizedCost, logMonopolist, estimatedMonopolist, drawnMonopolist]
    norm_num
  · refine logMonopolist_probability _ _ (fun k => ?_) (fun _ _ => Finset.sum_empty) j i
    have : updateDelta (logCharacteristic 2) (logCharacteristic 2).x0 k = (logState 2).delta k := by
      simp [updateDelta, logCharacteristic, realizationCharacteristic]
    exact this.trans (logState_values 2 k).2.1
  · simp [utilityDerivatives, logCharacteristic, realizationCharacteristic, realizationEconomy, drawCharacteristic,
      logMonopolist, estimatedMonopolist, drawnMonopolist, monopolist]

end Pyblp
