import Verif.Model.VlasovSave2
import Verif.Props.VlasovSample
import Verif.Props.VlasovSection

/-! The saved distributions of Vlasov-1D2V and Vlasov-2D (C227). -/
namespace Verif.VlasovSave2
open Finset Verif.VlasovSave

theorem surface_inside {x : ℕ → ℝ} {nx : ℕ} {v : ℕ → ℝ} {nv : ℕ} (f : ℕ → ℕ → ℝ) {xq vq : ℝ} (hx : x 0 ≤ xq ∧ xq ≤ x (nx - 1))
    (hv : v 0 ≤ vq ∧ vq ≤ v (nv - 1)) : interp2 x nx v nv f xq vq = some (surface x nx v nv f xq vq) :=
  sample_value x nx v nv f xq vq hx hv

theorem zeroed_inside {x : ℕ → ℝ} {nx : ℕ} {v : ℕ → ℝ} {nv : ℕ} (f : ℕ → ℕ → ℝ) {xq vq : ℝ} (hx : x 0 ≤ xq ∧ xq ≤ x (nx - 1))
    (hv : v 0 ≤ vq ∧ vq ≤ v (nv - 1)) : zeroed x nx v nv f xq vq = surface x nx v nv f xq vq := by
  unfold zeroed
  rw [if_neg]
  rintro (h | h | h | h)
  · exact absurd hx.1 (not_le.2 h)
  · exact absurd hx.2 (not_le.2 h)
  · exact absurd hv.1 (not_le.2 h)
  · exact absurd hv.2 (not_le.2 h)

theorem zeroed_outside {x : ℕ → ℝ} {nx : ℕ} {v : ℕ → ℝ} {nv : ℕ} (f : ℕ → ℕ → ℝ) {xq vq : ℝ}
    (h : ¬ ((x 0 ≤ xq ∧ xq ≤ x (nx - 1)) ∧ v 0 ≤ vq ∧ vq ≤ v (nv - 1))) : zeroed x nx v nv f xq vq = 0 := by
  unfold zeroed
  rw [if_pos]
  by_contra hc
  push Not at hc
  exact h ⟨⟨hc.1, hc.2.1⟩, hc.2.2.1, hc.2.2.2⟩

/-- The cell is always a cell of the grid, and the weights reproduce the point, inside or not. -/
theorem weight_exact {ax : ℕ → ℝ} {n : ℕ} (h : Increasing ax n) (hn : 2 ≤ n) (q : ℝ) :
    1 ≤ locate ax n q ∧ locate ax n q < n ∧
      (1 - weight ax n q) * ax (locate ax n q - 1) + weight ax n q * ax (locate ax n q) = q := by
  have h1 : 1 ≤ locate ax n q := le_max_left _ _
  have h2 : locate ax n q < n := by
    unfold locate
    omega
  refine ⟨h1, h2, ?_⟩
  have lt := h (locate ax n q - 1) (locate ax n q) (by omega) h2
  unfold weight
  dsimp only
  have : ax (locate ax n q) - ax (locate ax n q - 1) ≠ 0 := by linarith
  field_simp
  ring

/-- The surface is exact for bilinear data at every point, also outside the axes. -/
theorem surface_bilinear {x : ℕ → ℝ} {nx : ℕ} {v : ℕ → ℝ} {nv : ℕ} (ix : Increasing x nx) (iv : Increasing v nv) (hnx : 2 ≤ nx)
    (hnv : 2 ≤ nv) (a b c d : ℝ) (f : ℕ → ℕ → ℝ) (hf : ∀ i < nx, ∀ j < nv, f i j = a + b * x i + c * v j + d * (x i * v j)) (xq vq : ℝ) :
    surface x nx v nv f xq vq = a + b * xq + c * vq + d * (xq * vq) := by
  obtain ⟨x1, x2, x3⟩ := weight_exact ix hnx xq
  obtain ⟨v1, v2, v3⟩ := weight_exact iv hnv vq
  unfold surface
  dsimp only
  rw [hf _ (by omega) _ (by omega), hf _ (by omega) _ v2, hf _ x2 _ (by omega), hf _ x2 _ v2]
  generalize weight x nx xq = p at *
  generalize weight v nv vq = q at *
  generalize x (locate x nx xq - 1) = x0 at *
  generalize x (locate x nx xq) = x1' at *
  generalize v (locate v nv vq - 1) = v0 at *
  generalize v (locate v nv vq) = v1' at *
  subst x3
  subst v3
  ring

/-- The surface is linear in the data. -/
theorem surface_linear {x : ℕ → ℝ} {nx : ℕ} {v : ℕ → ℝ} {nv : ℕ} (a b : ℝ) (f g : ℕ → ℕ → ℝ) (xq vq : ℝ) :
    surface x nx v nv (fun i j => a * f i j + b * g i j) xq vq = a * surface x nx v nv f xq vq + b * surface x nx v nv g xq vq := by
  unfold surface
  dsimp only
  ring

/-! ### Vlasov-1D2V -/

/-- **C227.** At the points of the grid the saved distribution is the marginal. -/
theorem marginal_node {x : ℕ → ℝ} {nx : ℕ} {v : ℕ → ℝ} {nv : ℕ} (ix : Increasing x nx) (iv : Increasing v nv) (hnx : 2 ≤ nx)
    (hnv : 2 ≤ nv) (np : ℕ) (w : ℕ → ℝ) (f : ℕ → ℕ → ℕ → ℝ) {i j : ℕ} (hi : i < nx) (hj : j < nv) :
    saved2V x nx v nv np w f (x i) (v j) = ∑ p ∈ range np, f i j p * w p := by
  have h := sample_node ix iv hnx hnv (marginal np w f) i j hi hj
  rw [surface_inside _ ⟨ix.le (Nat.zero_le i) hi, ix.le (by omega) (by omega)⟩ ⟨iv.le (Nat.zero_le j) hj, iv.le (by omega) (by omega)⟩] at h
  exact Option.some.inj h

/-- **C227.** Between them it is not below the smallest nor above the greatest value of the marginal. -/
theorem marginal_between {x : ℕ → ℝ} {nx : ℕ} {v : ℕ → ℝ} {nv : ℕ} (ix : Increasing x nx) (iv : Increasing v nv) (hnx : 2 ≤ nx)
    (hnv : 2 ≤ nv) {np : ℕ} {w : ℕ → ℝ} {f : ℕ → ℕ → ℕ → ℝ} {lo hi : ℝ}
    (hf : ∀ i < nx, ∀ j < nv, lo ≤ ∑ p ∈ range np, f i j p * w p ∧ ∑ p ∈ range np, f i j p * w p ≤ hi) {xq vq : ℝ}
    (hx : x 0 ≤ xq ∧ xq ≤ x (nx - 1)) (hv : v 0 ≤ vq ∧ vq ≤ v (nv - 1)) :
    lo ≤ saved2V x nx v nv np w f xq vq ∧ saved2V x nx v nv np w f xq vq ≤ hi :=
  sample_range ix iv hnx hnv (marginal np w f) lo hi hf xq vq _ (surface_inside _ hx hv)

/-- **C227.** The value is a number at every point and exact for a marginal that is bilinear. -/
theorem marginal_bilinear {x : ℕ → ℝ} {nx : ℕ} {v : ℕ → ℝ} {nv : ℕ} (ix : Increasing x nx) (iv : Increasing v nv) (hnx : 2 ≤ nx)
    (hnv : 2 ≤ nv) {np : ℕ} {w : ℕ → ℝ} {f : ℕ → ℕ → ℕ → ℝ} {a b c d : ℝ}
    (hf : ∀ i < nx, ∀ j < nv, ∑ p ∈ range np, f i j p * w p = a + b * x i + c * v j + d * (x i * v j)) (xq vq : ℝ) :
    saved2V x nx v nv np w f xq vq = a + b * xq + c * vq + d * (xq * vq) :=
  surface_bilinear ix iv hnx hnv a b c d _ hf xq vq

/-- Left of the axis the first cell is continued. -/
theorem locate_left {ax : ℕ → ℝ} {n : ℕ} (h : Increasing ax n) (hn : 2 ≤ n) {q : ℝ} (hq : q < ax 0) : locate ax n q = 1 := by
  unfold locate
  have : ((range n).filter fun k => ax k ≤ q) = ∅ := by
    refine filter_eq_empty_iff.2 fun k hk hc => ?_
    have := h.le (Nat.zero_le k) (mem_range.1 hk)
    linarith
  rw [this]
  simp

/-- **C227, the exact value in the lowest requested velocity.** The save axis starts at the edge of
the grid, half a cell below the first cell; there the value is one and a half times the first minus
half the second. -/
theorem edge_value {x : ℕ → ℝ} {nx : ℕ} (ix : Increasing x nx) (hnx : 2 ≤ nx) (vmin vmax : ℝ) (hv : vmin < vmax) {nv n : ℕ} (hnv : 2 ≤ nv)
    (hn : 2 ≤ n) (np : ℕ) (w : ℕ → ℝ) (f : ℕ → ℕ → ℕ → ℝ) {i : ℕ} (hi : i < nx) :
    saved2V x nx (VlasovInit.vax vmin vmax nv) nv np w f (x i) (saveAxis false vmin vmax n 0) =
      3 / 2 * (∑ p ∈ range np, f i 0 p * w p) - 1 / 2 * ∑ p ∈ range np, f i 1 p * w p := by
  rw [((save_axes vmin vmax n 0).2 hn).1]
  have iv := cells_increasing vmin vmax hv nv
  have hd := VlasovInit.dv_pos vmin vmax hv nv (by omega)
  have e0 : VlasovInit.vax vmin vmax nv 0 = vmin + 1 / 2 * VlasovInit.dv vmin vmax nv := by
    rw [VlasovInit.vax_eq _ _ _ _ (by omega)]; push_cast; ring
  have e1 : VlasovInit.vax vmin vmax nv 1 = vmin + 3 / 2 * VlasovInit.dv vmin vmax nv := by
    rw [VlasovInit.vax_eq _ _ _ _ (by omega)]; push_cast; ring
  have hl : locate (VlasovInit.vax vmin vmax nv) nv vmin = 1 := locate_left iv hnv (by rw [e0]; linarith)
  have hw : weight (VlasovInit.vax vmin vmax nv) nv vmin = -(1 / 2) := by
    unfold weight
    dsimp only
    rw [hl, show 1 - 1 = 0 from rfl, e0, e1]
    have := hd.ne'
    rw [div_eq_iff (by linarith)]
    ring
  unfold saved2V extended surface
  dsimp only
  rw [hl, hw]
  rcases weight_node ix hnx i hi with ⟨g1, g2⟩ | ⟨g1, g2⟩ <;> rw [g1, g2] <;> simp only [marginal, Nat.add_sub_cancel, Nat.sub_self] <;> ring

/-- **C227 fails at the edges**: a distribution that is nowhere negative is saved with a negative
value in the first velocity of a save axis that spans the grid. -/
theorem negative_partial : ∃ f : ℕ → ℕ → ℕ → ℝ, (∀ i j p, 0 ≤ f i j p) ∧
    saved2V (fun i => i) 2 (VlasovInit.vax (-4) 4 4) 4 1 (fun _ => 1) f 0 (saveAxis false (-4) 4 8 0) < 0 := by
  refine ⟨fun _ j _ => if j = 1 then 1 else 0, fun _ _ _ => by dsimp only; split <;> norm_num, ?_⟩
  have ix : Increasing (fun i : ℕ => (i : ℝ)) 2 := fun i j h _ => by
    show (i : ℝ) < (j : ℝ)
    exact_mod_cast h
  have h := edge_value (i := 0) ix le_rfl (-4) 4 (by norm_num) (nv := 4) (n := 8) (by norm_num) (by norm_num) 1 (fun _ => 1)
    (fun _ j _ => if j = 1 then 1 else 0) (by norm_num)
  rw [Nat.cast_zero] at h
  rw [h]
  norm_num

/-! ### Vlasov-2D -/

/-- The four axes of a grid. -/
structure Axes.Good (g : Axes) : Prop where
  x : Increasing g.x g.nx
  y : Increasing g.y g.ny
  vx : Increasing g.vx g.nvx
  vy : Increasing g.vy g.nvy
  nx : 2 ≤ g.nx
  ny : 2 ≤ g.ny
  nvx : 2 ≤ g.nvx
  nvy : 2 ≤ g.nvy

/-- A point lies between the first and the last cell in place. -/
def Axes.InPlace (g : Axes) (xq yq : ℝ) : Prop := (g.x 0 ≤ xq ∧ xq ≤ g.x (g.nx - 1)) ∧ g.y 0 ≤ yq ∧ yq ≤ g.y (g.ny - 1)

/-- A point lies between the first and the last cell in velocity. -/
def Axes.InVelocity (g : Axes) (vxq vyq : ℝ) : Prop :=
  (g.vx 0 ≤ vxq ∧ vxq ≤ g.vx (g.nvx - 1)) ∧ g.vy 0 ≤ vyq ∧ vyq ≤ g.vy (g.nvy - 1)

/-- The first and last points are points of the axis. -/
theorem node_in {ax : ℕ → ℝ} {n : ℕ} (h : Increasing ax n) {i : ℕ} (hi : i < n) : ax 0 ≤ ax i ∧ ax i ≤ ax (n - 1) :=
  ⟨h.le (Nat.zero_le i) hi, h.le (by omega) (by omega)⟩

theorem zeroed_node {x : ℕ → ℝ} {nx : ℕ} {v : ℕ → ℝ} {nv : ℕ} (ix : Increasing x nx) (iv : Increasing v nv) (hnx : 2 ≤ nx)
    (hnv : 2 ≤ nv) (f : ℕ → ℕ → ℝ) {i j : ℕ} (hi : i < nx) (hj : j < nv) : zeroed x nx v nv f (x i) (v j) = f i j := by
  have h := sample_node ix iv hnx hnv f i j hi hj
  rw [surface_inside _ (node_in ix hi) (node_in iv hj)] at h
  rw [zeroed_inside _ (node_in ix hi) (node_in iv hj)]
  exact Option.some.inj h

/-- **C227.** At the points of the grid the saved distribution is the distribution. -/
theorem saved_node {g : Axes} (hg : g.Good) (f : ℕ → ℕ → ℕ → ℕ → ℝ) {i j k l : ℕ} (hi : i < g.nx) (hj : j < g.ny) (hk : k < g.nvx)
    (hl : l < g.nvy) : saved2D g f (g.x i) (g.y j) (g.vx k) (g.vy l) = f i j k l := by
  unfold saved2D
  dsimp only
  rw [zeroed_node hg.x hg.y hg.nx hg.ny _ hi hj, zeroed_node hg.vx hg.vy hg.nvx hg.nvy _ hk hl]

/-- **C227.** Outside the cells, in any of the four coordinates, it is zero. -/
theorem saved_outside (g : Axes) (f : ℕ → ℕ → ℕ → ℕ → ℝ) (xq yq vxq vyq : ℝ) (h : ¬ (g.InPlace xq yq ∧ g.InVelocity vxq vyq)) :
    saved2D g f xq yq vxq vyq = 0 := by
  unfold saved2D
  dsimp only
  by_cases hp : g.InPlace xq yq
  · have hv : ¬ g.InVelocity vxq vyq := fun hv => h ⟨hp, hv⟩
    have : (fun i j => zeroed g.vx g.nvx g.vy g.nvy (f i j) vxq vyq) = fun _ _ => 0 := by
      funext i j
      exact zeroed_outside _ hv
    rw [this, zeroed_inside _ hp.1 hp.2]
    unfold surface
    dsimp only
    ring
  · exact zeroed_outside _ hp

/-- **C227.** Inside it lies between bounds of the distribution; so it is nowhere negative and
nowhere above the greatest value. -/
theorem saved_between {g : Axes} (hg : g.Good) {f : ℕ → ℕ → ℕ → ℕ → ℝ} {lo hi : ℝ}
    (hf : ∀ i < g.nx, ∀ j < g.ny, ∀ k < g.nvx, ∀ l < g.nvy, lo ≤ f i j k l ∧ f i j k l ≤ hi) {xq yq vxq vyq : ℝ} (hp : g.InPlace xq yq)
    (hv : g.InVelocity vxq vyq) : lo ≤ saved2D g f xq yq vxq vyq ∧ saved2D g f xq yq vxq vyq ≤ hi := by
  unfold saved2D
  dsimp only
  rw [zeroed_inside _ hp.1 hp.2]
  refine sample_range hg.x hg.y hg.nx hg.ny _ lo hi (fun i hi' j hj => ?_) xq yq _ (surface_inside _ hp.1 hp.2)
  rw [zeroed_inside _ hv.1 hv.2]
  exact sample_range hg.vx hg.vy hg.nvx hg.nvy _ lo hi (hf i hi' j hj) vxq vyq _ (surface_inside _ hv.1 hv.2)

/-- A distribution that is nowhere negative is saved without a negative value. -/
theorem saved_nonneg {g : Axes} (hg : g.Good) {f : ℕ → ℕ → ℕ → ℕ → ℝ}
    (hf : ∀ i < g.nx, ∀ j < g.ny, ∀ k < g.nvx, ∀ l < g.nvy, 0 ≤ f i j k l) (xq yq vxq vyq : ℝ) : 0 ≤ saved2D g f xq yq vxq vyq := by
  by_cases h : g.InPlace xq yq ∧ g.InVelocity vxq vyq
  · obtain ⟨B, hB⟩ : ∃ B, ∀ i < g.nx, ∀ j < g.ny, ∀ k < g.nvx, ∀ l < g.nvy, f i j k l ≤ B := by
      refine ⟨∑ i ∈ range g.nx, ∑ j ∈ range g.ny, ∑ k ∈ range g.nvx, ∑ l ∈ range g.nvy, f i j k l, fun i hi j hj k hk l hl => ?_⟩
      have n4 : ∀ i < g.nx, ∀ j < g.ny, ∀ k < g.nvx, 0 ≤ ∑ l ∈ range g.nvy, f i j k l := fun i hi j hj k hk =>
        sum_nonneg fun l hl => hf i hi j hj k hk l (mem_range.1 hl)
      have n3 : ∀ i < g.nx, ∀ j < g.ny, 0 ≤ ∑ k ∈ range g.nvx, ∑ l ∈ range g.nvy, f i j k l := fun i hi j hj =>
        sum_nonneg fun k hk => n4 i hi j hj k (mem_range.1 hk)
      have n2 : ∀ i < g.nx, 0 ≤ ∑ j ∈ range g.ny, ∑ k ∈ range g.nvx, ∑ l ∈ range g.nvy, f i j k l := fun i hi =>
        sum_nonneg fun j hj => n3 i hi j (mem_range.1 hj)
      calc f i j k l ≤ ∑ l ∈ range g.nvy, f i j k l :=
            single_le_sum (f := fun l => f i j k l) (fun l hl => hf i hi j hj k hk l (mem_range.1 hl)) (mem_range.2 hl)
        _ ≤ ∑ k ∈ range g.nvx, ∑ l ∈ range g.nvy, f i j k l :=
            single_le_sum (f := fun k => ∑ l ∈ range g.nvy, f i j k l) (fun k hk => n4 i hi j hj k (mem_range.1 hk)) (mem_range.2 hk)
        _ ≤ ∑ j ∈ range g.ny, ∑ k ∈ range g.nvx, ∑ l ∈ range g.nvy, f i j k l :=
            single_le_sum (f := fun j => ∑ k ∈ range g.nvx, ∑ l ∈ range g.nvy, f i j k l) (fun j hj => n3 i hi j (mem_range.1 hj)) (mem_range.2 hj)
        _ ≤ _ := single_le_sum (f := fun i => ∑ j ∈ range g.ny, ∑ k ∈ range g.nvx, ∑ l ∈ range g.nvy, f i j k l)
            (fun i hi => n2 i (mem_range.1 hi)) (mem_range.2 hi)
    exact (saved_between hg (fun i hi j hj k hk l hl => ⟨hf i hi j hj k hk l hl, hB i hi j hj k hk l hl⟩) h.1 h.2).1
  · rw [saved_outside g f _ _ _ _ h]

/-- **C227.** The order of the two reductions does not matter. -/
theorem saved_order (g : Axes) (f : ℕ → ℕ → ℕ → ℕ → ℝ) (xq yq vxq vyq : ℝ) :
    saved2D g f xq yq vxq vyq =
      zeroed g.vx g.nvx g.vy g.nvy (fun k l => zeroed g.x g.nx g.y g.ny (fun i j => f i j k l) xq yq) vxq vyq := by
  by_cases hp : g.InPlace xq yq
  · by_cases hv : g.InVelocity vxq vyq
    · unfold saved2D
      dsimp only
      rw [zeroed_inside _ hp.1 hp.2, zeroed_inside _ hv.1 hv.2]
      simp only [zeroed_inside _ hp.1 hp.2, zeroed_inside _ hv.1 hv.2]
      unfold surface
      dsimp only
      ring
    · rw [saved_outside g f _ _ _ _ fun h => hv h.2, zeroed_outside _ hv]
  · rw [saved_outside g f _ _ _ _ fun h => hp h.1]
    have : (fun k l => zeroed g.x g.nx g.y g.ny (fun i j => f i j k l) xq yq) = fun _ _ => 0 := by
      funext k l
      exact zeroed_outside _ hp
    rw [this]
    unfold zeroed surface
    split <;> simp

/-- **C227.** A product of functions that are linear between the cells is saved exactly. -/
theorem saved_product {g : Axes} (hg : g.Good) (a b c d a' b' c' d' : ℝ) {xq yq vxq vyq : ℝ} (hp : g.InPlace xq yq) (hv : g.InVelocity vxq vyq) :
    saved2D g (fun i j k l => (a + a' * g.x i) * (b + b' * g.y j) * ((c + c' * g.vx k) * (d + d' * g.vy l))) xq yq vxq vyq =
      (a + a' * xq) * (b + b' * yq) * ((c + c' * vxq) * (d + d' * vyq)) := by
  unfold saved2D
  dsimp only
  rw [zeroed_inside _ hp.1 hp.2]
  have inner : (fun i j => zeroed g.vx g.nvx g.vy g.nvy (fun k l => (a + a' * g.x i) * (b + b' * g.y j) * ((c + c' * g.vx k) * (d + d' * g.vy l))) vxq vyq) =
      fun i j => (a + a' * g.x i) * (b + b' * g.y j) * ((c + c' * vxq) * (d + d' * vyq)) := by
    funext i j
    rw [zeroed_inside _ hv.1 hv.2]
    set m := (a + a' * g.x i) * (b + b' * g.y j)
    rw [surface_bilinear hg.vx hg.vy hg.nvx hg.nvy (m * c * d) (m * c' * d) (m * c * d') (m * c' * d') _ (fun k _ l _ => by ring)]
    ring
  rw [inner]
  set m := (c + c' * vxq) * (d + d' * vyq)
  rw [surface_bilinear hg.x hg.y hg.nx hg.ny (a * b * m) (a' * b * m) (a * b' * m) (a' * b' * m) _ (fun i _ j _ => by ring)]
  ring

/-- **C227.** Save axes: places are cell centres, velocities include both ends. -/
theorem axes_spec (lo hi : ℝ) (n : ℕ) : (∀ i, axis2d "x" lo hi n i = VlasovInit.vax lo hi n i ∧ axis2d "y" lo hi n i = VlasovInit.vax lo hi n i) ∧
    (2 ≤ n → axis2d "vx" lo hi n 0 = lo ∧ axis2d "vx" lo hi n (n - 1) = hi ∧ axis2d "vy" lo hi n 0 = lo ∧ axis2d "vy" lo hi n (n - 1) = hi) := by
  refine ⟨fun i => ⟨(save_axes lo hi n i).1, (save_axes lo hi n i).1⟩, fun hn => ?_⟩
  obtain ⟨h1, h2⟩ := (save_axes lo hi n 0).2 hn
  exact ⟨h1, h2, h1, h2⟩

/-- **C227 fails at the edges**: on save axes that span the velocity grid the first and the last
velocity are saved as zero, whatever the distribution is. -/
theorem edge_zero_partial (g : Axes) (vmax : ℝ) (hv : 0 < vmax) (hn : 0 < g.nvx) (hg : g.vx = VlasovInit.vax (-vmax) vmax g.nvx)
    (f : ℕ → ℕ → ℕ → ℕ → ℝ) {n : ℕ} (h2 : 2 ≤ n) (xq yq vyq : ℝ) :
    saved2D g f xq yq (axis2d "vx" (-vmax) vmax n 0) vyq = 0 ∧ saved2D g f xq yq (axis2d "vx" (-vmax) vmax n (n - 1)) vyq = 0 := by
  obtain ⟨e0, e1, -, -⟩ := (axes_spec (-vmax) vmax n).2 h2
  have hd := VlasovInit.dv_pos (-vmax) vmax (by linarith) g.nvx hn
  have first : VlasovInit.vax (-vmax) vmax g.nvx 0 = -vmax + 1 / 2 * VlasovInit.dv (-vmax) vmax g.nvx := by
    rw [VlasovInit.vax_eq _ _ _ _ hn]; push_cast; ring
  have last : VlasovInit.vax (-vmax) vmax g.nvx (g.nvx - 1) < vmax := by
    have h1 : g.nvx - 1 < g.nvx := by omega
    rw [VlasovInit.vax_eq _ _ _ _ h1]
    have hc : ((g.nvx - 1 : ℕ) : ℝ) = (g.nvx : ℝ) - 1 := by
      rw [Nat.cast_sub (by omega)]; simp
    have hN : VlasovInit.dv (-vmax) vmax g.nvx * g.nvx = vmax - -vmax := by
      unfold VlasovInit.dv
      have : (g.nvx : ℝ) ≠ 0 := by exact_mod_cast hn.ne'
      field_simp
    rw [hc]
    nlinarith
  constructor
  · refine saved_outside g f _ _ _ _ fun h => ?_
    have := h.2.1.1
    rw [e0, hg, first] at this
    linarith
  · refine saved_outside g f _ _ _ _ fun h => ?_
    have := h.2.1.2
    rw [e1, hg] at this
    linarith

/-! ### Labels -/

/-- **C227.** Vlasov-2D saves the whole distribution for a label with `t` alone, samples for a label
with all five dimensions whose numbers of points are given, and refuses every other label a deck
can contain. -/
theorem label2d (label : Dict String Bool) (hk : ∀ k ∈ dictKeys label, k ∉ ["func", "_species_name"]) (k : Kind) :
    dist2d label = .ok k ↔ (k = .full ∧ ∀ d, d ∈ dictKeys label ↔ d = "t") ∨
      (k = .sampled ∧ (∀ d ∈ ["t", "x", "y", "vx", "vy"], d ∈ dictKeys label) ∧
        ∀ d ∈ ["x", "y", "vx", "vy"], dictGet label d = some true) := by
  have e1 := same_iff (dictKeys label) ["t"]
  have n1 : ((dictKeys label).all (· ∈ ["t", "func"]) && ["t", "func"].all (· ∈ dictKeys label)) = false := by
    rw [Bool.eq_false_iff]
    intro h
    exact hk "func" (((same_iff _ _).1 h "func").2 (by simp)) (by simp)
  have n2 : ((dictKeys label).all (· ∈ ["t", "func", "_species_name"]) && ["t", "func", "_species_name"].all (· ∈ dictKeys label)) = false := by
    rw [Bool.eq_false_iff]
    intro h
    exact hk "func" (((same_iff _ _).1 h "func").2 (by simp)) (by simp)
  have hv : (["x", "y", "vx", "vy"].all fun d => (dictGet label d).getD false) = true ↔ ∀ d ∈ ["x", "y", "vx", "vy"], dictGet label d = some true := by
    rw [List.all_eq_true]
    refine forall₂_congr fun d _ => ?_
    cases dictGet label d <;> simp
  unfold dist2d
  dsimp only
  simp only [n1, n2, Bool.or_false]
  by_cases c1 : ((dictKeys label).all (· ∈ ["t"]) && ["t"].all (· ∈ dictKeys label)) = true
  · rw [if_pos c1]
    have h1 := e1.1 c1
    have h2 : ¬ ∀ d ∈ ["t", "x", "y", "vx", "vy"], d ∈ dictKeys label := fun h => by
      have := (h1 "x").1 (h "x" (by simp)); revert this; decide
    constructor
    · intro h
      cases h
      exact Or.inl ⟨rfl, by simpa using h1⟩
    · rintro (⟨rfl, -⟩ | ⟨-, h, -⟩)
      · rfl
      · exact absurd h h2
  · rw [if_neg c1]
    have h1 : ¬ ∀ d, d ∈ dictKeys label ↔ d = "t" := fun h => c1 (e1.2 (by simpa using h))
    by_cases c2 : (["t", "x", "y", "vx", "vy"].all (· ∈ dictKeys label)) = true
    · have h2 : ∀ d ∈ ["t", "x", "y", "vx", "vy"], d ∈ dictKeys label := by simpa using c2
      rw [c2]
      simp only [Bool.not_true, Bool.false_eq_true, if_false]
      by_cases c3 : (["x", "y", "vx", "vy"].all fun d => (dictGet label d).getD false) = true
      · rw [if_pos c3]
        have h3 := hv.1 c3
        constructor
        · intro h; cases h; exact Or.inr ⟨rfl, h2, h3⟩
        · rintro (⟨-, h⟩ | ⟨rfl, -⟩)
          · exact absurd h h1
          · rfl
      · rw [if_neg c3]
        constructor
        · intro h; cases h
        · rintro (⟨-, h⟩ | ⟨-, -, h⟩)
          · exact absurd h h1
          · exact absurd (hv.2 h) c3
    · have h2 : ¬ ∀ d ∈ ["t", "x", "y", "vx", "vy"], d ∈ dictKeys label := by simpa using c2
      rw [Bool.not_eq_true] at c2
      rw [c2]
      simp only [Bool.not_false, if_true]
      constructor
      · intro h; cases h
      · rintro (⟨-, h⟩ | ⟨-, h, -⟩)
        · exact absurd h h1
        · exact absurd h h2

/-- **C227.** A label that was prepared before, with its save function and species name inside, saves
the whole distribution again. -/
theorem label2d_whole (label : Dict String Bool) : dist2d label = .ok .full ↔ (∀ d, d ∈ dictKeys label ↔ d ∈ ["t"]) ∨
    (∀ d, d ∈ dictKeys label ↔ d ∈ ["t", "func"]) ∨ ∀ d, d ∈ dictKeys label ↔ d ∈ ["t", "func", "_species_name"] := by
  rw [← same_iff, ← same_iff, ← same_iff]
  unfold dist2d
  dsimp only
  split
  case isTrue h =>
    rw [Bool.or_eq_true, Bool.or_eq_true, or_assoc] at h
    exact iff_of_true rfl h
  case isFalse h =>
    rw [Bool.or_eq_true, Bool.or_eq_true, or_assoc] at h
    refine iff_of_false (fun k => ?_) h
    split at k
    · cases k
    · split at k
      · cases k
      · cases k

/-- **C227.** Vlasov-1D2V: `t` alone, or exactly `t`, `x` and `v`. -/
theorem label2v (label : Dict String Bool) (k : Kind) :
    dist2v label = .ok k ↔ (k = .full ∧ ∀ d, d ∈ dictKeys label ↔ d = "t") ∨
      (k = .sampled ∧ (∀ d, d ∈ dictKeys label ↔ d = "t" ∨ d = "x" ∨ d = "v") ∧ dictGet label "x" = some true ∧ dictGet label "v" = some true) := by
  have e1 := same_iff (dictKeys label) ["t"]
  have e2 := same_iff (dictKeys label) ["t", "x", "v"]
  have hv : (["x", "v"].all fun d => (dictGet label d).getD false) = true ↔ dictGet label "x" = some true ∧ dictGet label "v" = some true := by
    simp only [List.all_cons, List.all_nil, Bool.and_true, Bool.and_eq_true]
    refine and_congr ?_ ?_
    · cases dictGet label "x" <;> simp
    · cases dictGet label "v" <;> simp
  unfold dist2v
  dsimp only
  by_cases c1 : ((dictKeys label).all (· ∈ ["t"]) && ["t"].all (· ∈ dictKeys label)) = true
  · rw [if_pos c1]
    have h1 := e1.1 c1
    constructor
    · intro h; cases h; exact Or.inl ⟨rfl, by simpa using h1⟩
    · rintro (⟨rfl, -⟩ | ⟨-, h, -⟩)
      · rfl
      · exact absurd ((h1 "x").1 ((h "x").2 (by simp))) (by decide)
  · rw [if_neg c1]
    have h1 : ¬ ∀ d, d ∈ dictKeys label ↔ d = "t" := fun h => c1 (e1.2 (by simpa using h))
    by_cases c2 : ((dictKeys label).all (· ∈ ["t", "x", "v"]) && ["t", "x", "v"].all (· ∈ dictKeys label)) = true
    · rw [if_pos c2]
      have h2 := e2.1 c2
      by_cases c3 : (["x", "v"].all fun d => (dictGet label d).getD false) = true
      · rw [if_pos c3]
        constructor
        · intro h; cases h; exact Or.inr ⟨rfl, by simpa using h2, hv.1 c3⟩
        · rintro (⟨-, h⟩ | ⟨rfl, -⟩)
          · exact absurd h h1
          · rfl
      · rw [if_neg c3]
        constructor
        · intro h; cases h
        · rintro (⟨-, h⟩ | ⟨-, -, h⟩)
          · exact absurd h h1
          · exact absurd (hv.2 h) c3
    · rw [if_neg c2]
      constructor
      · intro h; cases h
      · rintro (⟨-, h⟩ | ⟨-, h, -⟩)
        · exact absurd h h1
        · exact absurd (e2.2 (by simpa using h)) c2

/-! ### Non-vacuity -/

/-- A grid of two places and four velocities in each direction. -/
noncomputable def smallAxes : Axes := ⟨VlasovInit.vax 0 2 2, 2, VlasovInit.vax 0 2 2, 2, VlasovInit.vax (-4) 4 4, 4, VlasovInit.vax (-4) 4 4, 4⟩

example : smallAxes.Good :=
  ⟨cells_increasing 0 2 (by norm_num) 2, cells_increasing 0 2 (by norm_num) 2, cells_increasing (-4) 4 (by norm_num) 4,
    cells_increasing (-4) 4 (by norm_num) 4, le_rfl, le_rfl, by decide, by decide⟩

example : dist2d [("t", true), ("x", true), ("y", true), ("vx", true), ("vy", true)] = .ok .sampled ∧ dist2d [("t", true)] = .ok .full ∧
    dist2d [("t", true), ("x", true), ("y", true)] = .error "NotImplementedError" ∧ dist2v [("t", true), ("x", true), ("v", true)] = .ok .sampled := by
  refine ⟨?_, ?_, ?_, ?_⟩ <;> rfl

end Verif.VlasovSave2
