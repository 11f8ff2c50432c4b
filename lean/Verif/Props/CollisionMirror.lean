import Verif.Props.VlasovRun
import Mathlib.Tactic.LinearCombination

/-!
The collision operators have no preferred direction (C226): on a symmetric velocity grid, collisions
of the mirror image are the mirror image of the collisions.
-/
namespace Verif.VlasovShard
open Finset FP

/-- `b` is the mirror image of `a` on the cells `i < n`. -/
def Flip (n : ℕ) (a b : ℕ → ℝ) : Prop := ∀ i < n, b i = a (n - 1 - i)

/-- A velocity grid symmetric about zero. -/
def SymGrid (n : ℕ) (v : ℕ → ℝ) : Prop := ∀ i < n, v (n - 1 - i) = -v i

theorem flip_sum {n : ℕ} {a b : ℕ → ℝ} (h : Flip n a b) : ∑ i ∈ range n, b i = ∑ i ∈ range n, a i := by
  rw [← Finset.sum_range_reflect a n]
  exact sum_congr rfl fun i hi => h i (mem_range.1 hi)

/-- The mirror image of an operator. -/
structure FlipTri (n : ℕ) (op op' : Tri) : Prop where
  diag : ∀ i < n, op'.diag i = op.diag (n - 1 - i)
  upper : ∀ e, e + 1 < n → op'.upper e = op.lower (n - 2 - e)
  lower : ∀ e, e + 1 < n → op'.lower e = op.upper (n - 2 - e)

theorem flip_mv {n : ℕ} {op op' : Tri} (h : FlipTri n op op') {a b : ℕ → ℝ} (hab : Flip n a b) {i : ℕ} (hi : i < n) :
    op'.mv n b i = op.mv n a (n - 1 - i) := by
  unfold Tri.mv
  rw [h.diag i hi, hab i hi]
  have h1 : (if i + 1 < n then op'.upper i * b (i + 1) else 0) =
      if 0 < n - 1 - i then op.lower (n - 1 - i - 1) * a (n - 1 - i - 1) else 0 := by
    by_cases hc : i + 1 < n
    · rw [if_pos hc, if_pos (by omega), h.upper i hc, hab (i + 1) hc,
        show n - 1 - i - 1 = n - 2 - i by omega, show n - 1 - (i + 1) = n - 2 - i by omega]
    · rw [if_neg hc, if_neg (by omega)]
  have h2 : (if 0 < i then op'.lower (i - 1) * b (i - 1) else 0) =
      if n - 1 - i + 1 < n then op.upper (n - 1 - i) * a (n - 1 - i + 1) else 0 := by
    by_cases hc : 0 < i
    · rw [if_pos hc, if_pos (by omega), h.lower (i - 1) (by omega), hab (i - 1) (by omega),
        show n - 2 - (i - 1) = n - 1 - i by omega, show n - 1 - (i - 1) = n - 1 - i + 1 by omega]
    · rw [if_neg hc, if_neg (by omega)]
  rw [h1, h2]
  ring

theorem flip_solve {n : ℕ} {op op' : Tri} (h : FlipTri n op op') {a b g k : ℕ → ℝ} (hab : Flip n a b) (hgk : Flip n g k)
    (hs : SolveOneX n op a g) : SolveOneX n op' b k := by
  obtain ⟨d, h1, h2⟩ := hs
  refine ⟨fun i => d (n - 1 - i), fun i hi => ?_, fun i hi => ?_⟩
  · have hd : Flip n d (fun i => d (n - 1 - i)) := fun i _ => rfl
    rw [flip_mv h hd hi, flip_mv h hab hi, hab i hi]
    exact h1 _ (by omega)
  · rw [hgk i hi, hab i hi]
    exact h2 _ (by omega)

/-- A drift that changes sign in the mirror. -/
def FlipDrift (n : ℕ) (C C' : ℕ → ℝ) : Prop := ∀ e, e + 1 < n → C' e = -C (n - 2 - e)

theorem flip_central {n : ℕ} {dv D nu dt : ℝ} {C C' : ℕ → ℝ} (h : FlipDrift n C C') :
    FlipTri n (central n dv C (fun _ => D) (fun _ => nu) dt) (central n dv C' (fun _ => D) (fun _ => nu) dt) where
  diag i hi := by
    simp only [central, assemble, addEdges]
    have e1 : (if i + 1 < n then (C' i / 2 - D / dv) / dv else 0) = if 0 < n - 1 - i then -(C (n - 1 - i - 1) / 2 + D / dv) / dv else 0 := by
      by_cases hc : i + 1 < n
      · rw [if_pos hc, if_pos (by omega), h i hc, show n - 1 - i - 1 = n - 2 - i by omega]
        ring
      · rw [if_neg hc, if_neg (by omega)]
    have e2 : (if 0 < i then -(C' (i - 1) / 2 + D / dv) / dv else 0) = if n - 1 - i + 1 < n then (C (n - 1 - i) / 2 - D / dv) / dv else 0 := by
      by_cases hc : 0 < i
      · rw [if_pos hc, if_pos (by omega), h (i - 1) (by omega), show n - 2 - (i - 1) = n - 1 - i by omega]
        ring
      · rw [if_neg hc, if_neg (by omega)]
    rw [e1, e2]
    ring
  upper e he := by
    simp only [central, assemble]
    rw [h e he]
  lower e he := by
    simp only [central, assemble]
    rw [h e he]
    ring

theorem flip_weighted {n : ℕ} {dv D nu dt : ℝ} {C C' delta delta' : ℕ → ℝ} (h : FlipDrift n C C')
    (hd : ∀ e, e + 1 < n → delta' e = 1 - delta (n - 2 - e)) :
    FlipTri n (weighted n dv C (fun _ => D) (fun _ => nu) dt delta) (weighted n dv C' (fun _ => D) (fun _ => nu) dt delta') where
  diag i hi := by
    simp only [weighted, assemble, addEdges, safeD]
    have e1 : (if i + 1 < n then -(-C' i * delta' i + max D (1 / 10 ^ 30) / dv) / dv else 0) =
        if 0 < n - 1 - i then (-C (n - 1 - i - 1) * (1 - delta (n - 1 - i - 1)) - max D (1 / 10 ^ 30) / dv) / dv else 0 := by
      by_cases hc : i + 1 < n
      · rw [if_pos hc, if_pos (by omega), h i hc, hd i hc, show n - 1 - i - 1 = n - 2 - i by omega]
        ring
      · rw [if_neg hc, if_neg (by omega)]
    have e2 : (if 0 < i then (-C' (i - 1) * (1 - delta' (i - 1)) - max D (1 / 10 ^ 30) / dv) / dv else 0) =
        if n - 1 - i + 1 < n then -(-C (n - 1 - i) * delta (n - 1 - i) + max D (1 / 10 ^ 30) / dv) / dv else 0 := by
      by_cases hc : 0 < i
      · rw [if_pos hc, if_pos (by omega), h (i - 1) (by omega), hd (i - 1) (by omega), show n - 2 - (i - 1) = n - 1 - i by omega]
        ring
      · rw [if_neg hc, if_neg (by omega)]
    rw [e1, e2]
    ring
  upper e he := by
    simp only [weighted, assemble, safeD]
    rw [h e he, hd e he]
    ring
  lower e he := by
    simp only [weighted, assemble, safeD]
    rw [h e he, hd e he]
    ring

theorem ccDelta_neg (w : ℝ) : ccDelta (-w) = 1 - ccDelta w := by
  unfold ccDelta
  rw [abs_neg]
  split
  · ring
  · rename_i h
    have hw : w ≠ 0 := by
      rintro rfl
      exact h (by norm_num)
    have h1 : Real.exp w - 1 ≠ 0 := by
      intro h0
      exact hw (Real.exp_injective (by rw [Real.exp_zero]; linarith))
    have h2 : Real.exp (-w) - 1 ≠ 0 := by
      intro h0
      exact hw (neg_eq_zero.1 (Real.exp_injective (by rw [Real.exp_zero]; linarith)))
    have h3 : Real.exp (-w) * Real.exp w = 1 := by rw [← Real.exp_add]; simp
    have h4 : 1 / (Real.exp (-w) - 1) = -1 - 1 / (Real.exp w - 1) := by
      rw [eq_sub_iff_add_eq, div_add_div _ _ h2 h1, div_eq_iff (mul_ne_zero h2 h1)]
      linear_combination h3
    rw [h4, div_neg]
    ring

theorem flip_changCooper {n : ℕ} {dv D nu dt : ℝ} {C C' : ℕ → ℝ} (h : FlipDrift n C C') :
    FlipTri n (changCooper n dv C (fun _ => D) (fun _ => nu) dt) (changCooper n dv C' (fun _ => D) (fun _ => nu) dt) := by
  refine flip_weighted h fun e he => ?_
  rw [h e he, ← ccDelta_neg]
  congr 1
  simp only [safeD]
  ring

/-! ### Moments and inverse temperature -/

theorem flip_vbar {n : ℕ} {v a b : ℕ → ℝ} (hv : SymGrid n v) (h : Flip n a b) : vbarOf n v b = -vbarOf n v a := by
  unfold vbarOf
  rw [flip_sum h, ← neg_div, ← Finset.sum_neg_distrib]
  congr 1
  have : Flip n (fun i => -(a i * v i)) (fun i => b i * v i) := by
    intro i hi
    show b i * v i = -(a (n - 1 - i) * v (n - 1 - i))
    rw [h i hi, hv i hi]
    ring
  exact flip_sum this

theorem flip_shifted {n : ℕ} {v : ℕ → ℝ} {dv : ℝ} (hv : SymGrid n v) (u : Option ℝ) {i : ℕ} (hi : i < n) :
    Beta.shifted ⟨n, v, fun _ => dv, false⟩ (u.map Neg.neg) i = -Beta.shifted ⟨n, v, fun _ => dv, false⟩ u (n - 1 - i) := by
  have := hv i hi
  cases u with
  | none => simp only [Beta.shifted, Option.map_none]; linarith
  | some u => simp only [Beta.shifted, Option.map_some]; linarith

theorem flip_temperature {n : ℕ} {v : ℕ → ℝ} {dv : ℝ} (hv : SymGrid n v) (u : Option ℝ) {a b : ℕ → ℝ} (h : Flip n a b) :
    Beta.temperature ⟨n, v, fun _ => dv, false⟩ (u.map Neg.neg) b = Beta.temperature ⟨n, v, fun _ => dv, false⟩ u a := by
  unfold Beta.temperature
  simp only [Bool.false_eq_true, if_false]
  congr 1
  · refine flip_sum fun i hi => ?_
    rw [flip_shifted hv u hi, h i hi, neg_sq]
  · refine flip_sum fun i hi => ?_
    rw [h i hi]

theorem flip_residual {n : ℕ} {v : ℕ → ℝ} {dv : ℝ} (hv : SymGrid n v) (u : Option ℝ) (m T : ℝ) :
    Beta.residual ⟨n, v, fun _ => dv, false⟩ (u.map Neg.neg) m T = Beta.residual ⟨n, v, fun _ => dv, false⟩ u m T := by
  funext beta
  unfold Beta.residual
  congr 1
  refine flip_temperature hv u fun i hi => ?_
  unfold Beta.model
  rw [flip_shifted hv u hi, neg_sq, abs_neg]

theorem flip_find {n : ℕ} {v : ℕ → ℝ} {dv : ℝ} (hv : SymGrid n v) (u : Option ℝ) {a b : ℕ → ℝ} (h : Flip n a b) (steps : ℕ) (m beta : ℝ) :
    Beta.Find ⟨n, v, fun _ => dv, false⟩ b (u.map Neg.neg) steps m beta ↔ Beta.Find ⟨n, v, fun _ => dv, false⟩ a u steps m beta := by
  unfold Beta.Find
  dsimp only
  rw [flip_temperature hv u h, flip_residual hv u]

theorem flip_psi {n : ℕ} {v : ℕ → ℝ} (hv : SymGrid n v) (u m : ℝ) {i : ℕ} (hi : i < n) :
    |v i - -u| ^ m = |v (n - 1 - i) - u| ^ m := by
  rw [hv i hi, show v i - -u = -(-v i - u) by ring, abs_neg]

theorem flip_closure {n : ℕ} {v : ℕ → ℝ} (hv : SymGrid n v) {a b : ℕ → ℝ} (h : Flip n a b) (m : ℝ) :
    Beta.closure n v m b = Beta.closure n v m a := by
  unfold Beta.closure
  rw [flip_vbar hv h, flip_sum h]
  congr 2
  refine flip_sum fun i hi => ?_
  unfold Beta.psi
  rw [h i hi, flip_psi hv _ m hi]

theorem flip_betaResidual {n : ℕ} {v : ℕ → ℝ} (hv : SymGrid n v) {a b : ℕ → ℝ} (h : Flip n a b) (m : ℝ) :
    betaResidual n v (vbarOf n v b) m b = betaResidual n v (vbarOf n v a) m a := by
  funext beta
  rw [flip_vbar hv h]
  unfold betaResidual
  dsimp only
  refine flip_sum (n := n - 1) fun e he => ?_
  have e1 : e + 1 < n := by omega
  have e2 : n - 1 - (e + 1) = n - 1 - 1 - e := by omega
  have e3 : n - 1 - e = n - 1 - 1 - e + 1 := by omega
  have p1 := flip_psi hv (vbarOf n v a) m (show e < n by omega)
  have p2 := flip_psi hv (vbarOf n v a) m e1
  have v1 := hv e (by omega)
  have v2 := hv (e + 1) e1
  have a1 := h e (by omega)
  have a2 := h (e + 1) e1
  rw [e3] at p1 v1 a1
  rw [e2] at p2 v2 a2
  rw [p1, p2, a1, a2]
  have hw : beta * (|v (n - 1 - 1 - e) - vbarOf n v a| ^ m - |v (n - 1 - 1 - e + 1) - vbarOf n v a| ^ m) =
      -(beta * (|v (n - 1 - 1 - e + 1) - vbarOf n v a| ^ m - |v (n - 1 - 1 - e) - vbarOf n v a| ^ m)) := by ring
  rw [hw, ccDelta_neg, v1, v2]
  ring

theorem flip_computeBeta {n : ℕ} {v : ℕ → ℝ} (hv : SymGrid n v) {a b : ℕ → ℝ} (h : Flip n a b) (m : ℝ) (steps : ℕ) (beta : ℝ) :
    Beta.ComputeBeta n v m b steps beta ↔ Beta.ComputeBeta n v m a steps beta := by
  unfold Beta.ComputeBeta
  rw [flip_closure hv h, flip_betaResidual hv h]

/-! ### Drifts -/

theorem flip_betaModel {n : ℕ} {v : ℕ → ℝ} (hv : SymGrid n v) (u beta : ℝ) :
    FlipDrift n (betaModel v u beta).1 (betaModel v (-u) beta).1 := by
  intro e he
  have v1 := hv e (by omega)
  have v2 := hv (e + 1) he
  rw [show n - 1 - e = n - 2 - e + 1 by omega] at v1
  rw [show n - 1 - (e + 1) = n - 2 - e by omega] at v2
  simp only [betaModel]
  rw [v1, v2]
  ring

theorem flip_superGaussian {n : ℕ} {v : ℕ → ℝ} (hv : SymGrid n v) (dv u beta m D : ℝ) :
    FlipDrift n (superGaussianModel v dv u beta m D) (superGaussianModel v dv (-u) beta m D) := by
  intro e he
  have p1 := flip_psi hv u m (show e < n by omega)
  have p2 := flip_psi hv u m he
  rw [show n - 1 - e = n - 2 - e + 1 by omega] at p1
  rw [show n - 1 - (e + 1) = n - 2 - e by omega] at p2
  simp only [superGaussianModel]
  rw [p1, p2]
  ring

theorem flip_nodragMaxwellian {n : ℕ} {v : ℕ → ℝ} (hv : SymGrid n v) (dv u beta : ℝ) {a b : ℕ → ℝ} (h : Flip n a b) :
    Flip n (nodragMaxwellian n v dv u beta a) (nodragMaxwellian n v dv (-u) beta b) := by
  have hE : Flip n (fun j => Real.exp (-beta * (v j - u) ^ 2)) (fun j => Real.exp (-beta * (v j - -u) ^ 2)) := by
    intro i hi
    show Real.exp (-beta * (v i - -u) ^ 2) = Real.exp (-beta * (v (n - 1 - i) - u) ^ 2)
    rw [hv i hi]
    congr 2
    ring
  intro i hi
  unfold nodragMaxwellian
  dsimp only
  have h0 := hE i hi
  dsimp only at h0
  rw [h0, flip_sum h, flip_sum hE]

theorem flip_nodragLap {n : ℕ} (hn : 2 ≤ n) (dv D : ℝ) {a b : ℕ → ℝ} (h : Flip n a b) : Flip n (nodragLap n dv D a) (nodragLap n dv D b) := by
  intro i hi
  unfold nodragLap
  dsimp only
  by_cases h1 : i = n - 1
  · rw [if_pos h1, if_neg (by omega), if_pos (by omega), h (n - 2) (by omega), h (n - 1) (by omega),
      show n - 1 - (n - 2) = 1 by omega, show n - 1 - (n - 1) = 0 by omega]
  · rw [if_neg h1]
    by_cases h2 : i = 0
    · rw [if_pos h2, if_pos (by omega), h 1 (by omega), h 0 (by omega), show n - 1 - 1 = n - 2 by omega, Nat.sub_zero]
    · rw [if_neg h2, if_neg (by omega), if_neg (by omega), h (i + 1) (by omega), h i hi, h (i - 1) (by omega),
        show n - 1 - (i + 1) = n - 1 - i - 1 by omega, show n - 1 - (i - 1) = n - 1 - i + 1 by omega]
      ring

theorem flip_nodrag {n : ℕ} (hn : 2 ≤ n) {v : ℕ → ℝ} (hv : SymGrid n v) {dv u beta nu dt : ℝ} {a b g k : ℕ → ℝ} (hab : Flip n a b)
    (hgk : Flip n g k) (h : NodragStep n v dv u beta nu dt a g) : NodragStep n v dv (-u) beta nu dt b k := by
  obtain ⟨d, h1, h2⟩ := h
  have hD : (betaModel v (-u) beta).2 = (betaModel v u beta).2 := rfl
  refine ⟨fun i => d (n - 1 - i), ?_, fun i hi => ?_⟩
  · rw [hD]
    refine flip_solve (flip_central ?_) hab (fun i _ => rfl) h1
    intro e _
    simp
  · rw [hgk i hi, h2 _ (by omega), hD, flip_nodragLap hn dv _ (flip_nodragMaxwellian hv dv u beta hab) i hi]

theorem flip_krook {n : ℕ} {v : ℕ → ℝ} (hv : SymGrid n v) (dv T0 mass nuK dt : ℝ) {a b : ℕ → ℝ} (h : Flip n a b) :
    Flip n (krook n dv (krookMaxwellian n v dv T0 mass) nuK a dt) (krook n dv (krookMaxwellian n v dv T0 mass) nuK b dt) := by
  intro i hi
  unfold krook krookMaxwellian
  dsimp only
  rw [h i hi, flip_sum h, hv i hi, neg_sq]

/-! ### One collision step -/

theorem flip_betaOf {c : CollCfg} {n : ℕ} {v : ℕ → ℝ} {dv : ℝ} (hv : SymGrid n v) {a b : ℕ → ℝ} (h : Flip n a b) (beta : ℝ) :
    BetaOf c n v dv b beta ↔ BetaOf c n v dv a beta := by
  have hu : ∀ k, vbar k n v b = (vbar k n v a).map Neg.neg := by
    intro k
    cases k <;> simp [vbar, flip_vbar hv h]
  unfold BetaOf
  cases c.kind with
  | superGaussian => exact flip_computeBeta hv h _ _ _
  | lenardBernsteinCentral => simp only [hu]; exact flip_find hv _ h _ _ _
  | lenardBernsteinCC => simp only [hu]; exact flip_find hv _ h _ _ _
  | doughertyCC => simp only [hu]; exact flip_find hv _ h _ _ _
  | doughertyCentral => simp only [hu]; exact flip_find hv _ h _ _ _
  | nodrag => simp only [hu]; exact flip_find hv _ h _ _ _

theorem flip_fpRow {c : CollCfg} {n : ℕ} (hn : 2 ≤ n) {v : ℕ → ℝ} {dv nu dt : ℝ} (hv : SymGrid n v) {a b g k : ℕ → ℝ} (hab : Flip n a b)
    (hgk : Flip n g k) (h : FpRow c n v dv nu dt a g) : FpRow c n v dv nu dt b k := by
  obtain ⟨beta, h1, h2⟩ := h
  refine ⟨beta, (flip_betaOf hv hab beta).2 h1, ?_⟩
  have hu : (vbar c.kind n v b).getD 0 = -(vbar c.kind n v a).getD 0 := by
    cases c.kind <;> simp [vbar, flip_vbar hv hab]
  dsimp only at h2 ⊢
  rw [hu]
  have hc := flip_betaModel hv ((vbar c.kind n v a).getD 0) beta
  have hs := flip_superGaussian hv dv ((vbar c.kind n v a).getD 0) beta c.m (Beta.diffusion c.m beta)
  generalize (vbar c.kind n v a).getD 0 = u at h2 hc hs ⊢
  cases hk : c.kind <;> simp only [hk] at h2 ⊢
  · exact flip_solve (flip_central hc) hab hgk h2
  · exact flip_solve (flip_changCooper hc) hab hgk h2
  · exact flip_solve (flip_changCooper hc) hab hgk h2
  · exact flip_solve (flip_central hc) hab hgk h2
  · exact flip_solve (flip_changCooper hs) hab hgk h2
  · exact flip_nodrag hn hv hab hgk h2

/-- **A collision step of the mirror image is the mirror image of the step**, for every type of
operator, on a symmetric velocity grid. -/
theorem flip_row {c : CollCfg} {n : ℕ} (hn : 2 ≤ n) {v : ℕ → ℝ} {dv mass nuFp nuK dt : ℝ} (hv : SymGrid n v) {a b g k : ℕ → ℝ}
    (hab : Flip n a b) (hgk : Flip n g k) (h : CollideRow c n v dv mass nuFp nuK dt a g) : CollideRow c n v dv mass nuFp nuK dt b k := by
  obtain ⟨m, h1, h2⟩ := h
  have hm : Flip n m (fun i => m (n - 1 - i)) := fun i _ => rfl
  refine ⟨fun i => m (n - 1 - i), ?_, fun i hi => ?_⟩
  · split_ifs with hf
    · rw [if_pos hf] at h1
      exact flip_fpRow hn hv hab hm h1
    · rw [if_neg hf] at h1
      intro i hi
      rw [hab i hi]
      exact h1 _ (by omega)
  · rw [hgk i hi, h2 _ (by omega)]
    split_ifs with hf
    · rw [flip_krook hv dv c.T0 mass nuK dt hm i hi]
    · rfl

end Verif.VlasovShard
