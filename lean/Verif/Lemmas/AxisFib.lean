import Verif.Lemmas.Axis
import Verif.Model.LorentzAxis
import Verif.Model.StereoAxis
import Mathlib.Tactic.Ring

/-!
Helper lemmas: the tensor functions of `LorentzAxis` and `StereoAxis`, read along the manifold
axis, are the vector functions of `Verif/Model/Lorentz.lean` and `Verif/Model/Stereo.lean`.
-/

namespace Geoopt.AxisFib
open Geoopt Geoopt.Axis Geoopt.Axis.Tensor Matrix
variable {m n : ℕ}

theorem bsize_self (a : ℕ) : bsize a a = a := by unfold bsize; split_ifs <;> rfl

theorem shape_map2 {r : ℕ} (f : ℝ → ℝ → ℝ) (a b : Tensor r) (k : Fin r) :
    (map2 f a b).shape k = bsize (a.shape k) (b.shape k) := rfl
theorem shape_add {r : ℕ} (a b : Tensor r) (k : Fin r) :
    (a + b).shape k = bsize (a.shape k) (b.shape k) := rfl
theorem shape_sub {r : ℕ} (a b : Tensor r) (k : Fin r) :
    (a - b).shape k = bsize (a.shape k) (b.shape k) := rfl
theorem shape_mul {r : ℕ} (a b : Tensor r) (k : Fin r) :
    (a * b).shape k = bsize (a.shape k) (b.shape k) := rfl
theorem shape_div {r : ℕ} (a b : Tensor r) (k : Fin r) :
    (a / b).shape k = bsize (a.shape k) (b.shape k) := rfl
theorem shape_neg {r : ℕ} (a : Tensor r) (k : Fin r) : (-a).shape k = a.shape k := rfl
theorem shape_map {r : ℕ} (f : ℝ → ℝ) (a : Tensor r) (k : Fin r) :
    (a.map f).shape k = a.shape k := rfl
theorem shape_sumK {r : ℕ} (d : Fin r) (a : Tensor r) (k : Fin r) :
    (a.sumK d).shape k = if k = d then 1 else a.shape k := by
  simp [sumK, Function.update_apply]
theorem shape_prodK {r : ℕ} (d : Fin r) (a : Tensor r) (k : Fin r) :
    (a.prodK d).shape k = if k = d then 1 else a.shape k := by
  simp [prodK, Function.update_apply]
theorem shape_normK {r : ℕ} (d : Fin r) (a : Tensor r) (k : Fin r) :
    (a.normK d).shape k = if k = d then 1 else a.shape k := shape_sumK d _ k
theorem shape_narrow {r : ℕ} (d : Fin r) (s l : ℕ) (a : Tensor r) (k : Fin r) :
    (a.narrow d s l).shape k = if k = d then l else a.shape k := by
  simp [narrow, Function.update_apply]
theorem shape_cat {r : ℕ} (d : Fin r) (a b : Tensor r) (k : Fin r) :
    (cat d a b).shape k = if k = d then a.shape d + b.shape d else a.shape k := by
  simp [cat, Function.update_apply]

/-- Reading at an index along the axis only depends on the batch position when the axis has
size one. -/
theorem get_update_one {r : ℕ} (d : Fin r) (t : Tensor r) (h : t.shape d = 1) (i : Fin r → ℕ)
    (a : ℕ) : t.get (Function.update i d a) = t.get i :=
  get_congr t fun k hk => by
    rw [Function.update_of_ne]
    rintro rfl; exact hk h

/-! ### Lorentz -/

section
variable (d : Fin (m + 1)) (k : ℝ)

theorem l_innerK_get (u v : Tensor (m + 1)) (hu : u.shape d = n + 1) (hv : v.shape d = n + 1)
    (i : Fin (m + 1) → ℕ) :
    (LorentzAxis.innerK d u v).get i =
      Lorentz.inner (u.fib d (n + 1) i) (v.fib d (n + 1) i) := by
  have huv : (u * v).shape d = n + 1 := by rw [shape_mul, hu, hv, bsize_self]
  simp only [LorentzAxis.innerK]
  rw [get_sumK, shape_cat, if_pos rfl, shape_neg, shape_narrow, if_pos rfl, shape_narrow,
    if_pos rfl, hu, show 1 + (n + 1 - 1) = n + 1 by omega, Finset.sum_range_succ', add_comm]
  unfold Lorentz.inner
  congr 1
  · rw [get_cat_left _ _ _ _ (by simp [shape_neg, shape_narrow]), get_neg,
      get_narrow_one _ _ _ (by rw [huv]; omega), get_mul]
    simp [fib]
  · rw [dotProduct, Finset.sum_range]
    refine Finset.sum_congr rfl fun j _ => ?_
    have hj := j.2
    rw [get_cat_right _ _ _ _ (by simp [shape_neg, shape_narrow])
        (by simp [shape_neg, shape_narrow]; omega)
        (by intro k hk; simp [shape_neg, shape_narrow, hk]),
      get_narrow _ _ _ _ _ (by simp [shape_neg, shape_narrow]) (by rw [huv]; omega), get_mul]
    simp [fib, Fin.tail, shape_neg, shape_narrow]

theorem l_inner_get (u v : Tensor (m + 1)) (hu : u.shape d = n + 1) (hv : v.shape d = n + 1)
    (i : Fin m → ℕ) :
    (LorentzAxis.inner d u v).get i =
      Lorentz.inner (u.fib d (n + 1) (d.insertNth (α := fun _ => ℕ) 0 i))
        (v.fib d (n + 1) (d.insertNth (α := fun _ => ℕ) 0 i)) := by
  have huv : (u * v).shape d = n + 1 := by rw [shape_mul, hu, hv, bsize_self]
  simp only [LorentzAxis.inner]
  rw [get_add, get_neg, get_sum, get_sum, shape_narrow, if_pos rfl, shape_narrow, if_pos rfl, hu]
  unfold Lorentz.inner
  congr 1
  · rw [Finset.sum_range_one, get_narrow_one _ _ _ (by rw [huv]; omega), get_mul]
    simp [fib]
  · rw [dotProduct, Finset.sum_range]
    refine Finset.sum_congr (by congr 1) fun j _ => ?_
    have hj := j.2
    rw [get_narrow _ _ _ _ _ (by simp) (by rw [huv]; omega), get_mul]
    simp [fib, Fin.tail]

theorem l_inner0K_get (u : Tensor (m + 1)) (hu : u.shape d = n + 1) (i : Fin (m + 1) → ℕ) :
    (LorentzAxis.inner0K d k u).get i = Lorentz.inner0 k (u.fib d (n + 1) i) := by
  simp only [LorentzAxis.inner0K, get_map, get_neg]
  rw [get_narrow_one _ _ _ (by rw [hu]; omega)]
  rfl

theorem l_inner0_get (u : Tensor (m + 1)) (hu : u.shape d = n + 1) (i : Fin m → ℕ) :
    (LorentzAxis.inner0 d k u).get i =
      Lorentz.inner0 k (u.fib d (n + 1) (d.insertNth (α := fun _ => ℕ) 0 i)) := by
  rw [LorentzAxis.inner0, get_squeeze, l_inner0K_get d k u hu]

theorem l_distK_get (x y : Tensor (m + 1)) (hx : x.shape d = n + 1) (hy : y.shape d = n + 1)
    (i : Fin (m + 1) → ℕ) :
    (LorentzAxis.distK d k x y).get i =
      Lorentz.dist k (x.fib d (n + 1) i) (y.fib d (n + 1) i) := by
  simp only [LorentzAxis.distK, get_map, get_neg, l_innerK_get d x y hx hy, Lorentz.dist]

theorem l_dist_get (x y : Tensor (m + 1)) (hx : x.shape d = n + 1) (hy : y.shape d = n + 1)
    (i : Fin m → ℕ) :
    (LorentzAxis.dist d k x y).get i =
      Lorentz.dist k (x.fib d (n + 1) (d.insertNth (α := fun _ => ℕ) 0 i))
        (y.fib d (n + 1) (d.insertNth (α := fun _ => ℕ) 0 i)) := by
  simp only [LorentzAxis.dist, get_map, get_neg, l_inner_get d x y hx hy, Lorentz.dist]

theorem l_dist0K_get (x : Tensor (m + 1)) (hx : x.shape d = n + 1) (i : Fin (m + 1) → ℕ) :
    (LorentzAxis.dist0K d k x).get i = Lorentz.dist0 k (x.fib d (n + 1) i) := by
  simp only [LorentzAxis.dist0K, get_map, get_neg, l_inner0K_get d k x hx, Lorentz.dist0]

theorem l_dist0_get (x : Tensor (m + 1)) (hx : x.shape d = n + 1) (i : Fin m → ℕ) :
    (LorentzAxis.dist0 d k x).get i =
      Lorentz.dist0 k (x.fib d (n + 1) (d.insertNth (α := fun _ => ℕ) 0 i)) := by
  simp only [LorentzAxis.dist0, get_map, get_neg, l_inner0_get d k x hx, Lorentz.dist0]

theorem l_project_fib (x : Tensor (m + 1)) (hx : x.shape d = n + 1) (i : Fin (m + 1) → ℕ) :
    (LorentzAxis.project d k x).fib d (n + 1) i = Lorentz.project k (x.fib d (n + 1) i) := by
  funext j
  simp only [LorentzAxis.project, fib_apply, Lorentz.project]
  have hl : ∀ k', ((((x.narrow d 1 (x.shape d - 1)).norm d).map
      fun a => Real.sqrt (k + a ^ 2)).unsqueeze d).shape k' =
        if k' = d then 1 else x.shape k' := by
    intro k'
    rcases Fin.eq_self_or_eq_succAbove d k' with h | ⟨l, h⟩
    · subst h; simp [unsqueeze]
    · subst h
      simp [unsqueeze, shape_map, Tensor.norm, squeeze, shape_normK, shape_narrow,
        Fin.succAbove_ne]
  refine Fin.cases ?_ (fun j => ?_) j
  · rw [get_cat_left _ _ _ _ (by rw [hl]; simp), get_unsqueeze, get_map, get_norm, get_normK,
      shape_narrow, if_pos rfl, hx]
    simp only [Fin.cons_zero]
    congr 3
    rw [nrm, dotProduct, Finset.sum_range]
    congr 1
    refine Finset.sum_congr (by congr 1) fun l _ => ?_
    have hl := l.2
    rw [get_narrow _ _ _ _ _ (by simp) (by omega)]
    simp only [fib, Fin.tail, pow_two, Function.update_self, Fin.val_succ]
    have : Function.update (Function.update (d.insertNth (α := fun _ => ℕ) 0
        fun k' => Function.update i d ((0 : Fin (n + 1)) : ℕ) (d.succAbove k')) d (l : ℕ)) d (l + 1)
        = Function.update i d ((l : ℕ) + 1) := by
      funext k'
      rcases Fin.eq_self_or_eq_succAbove d k' with h | ⟨p, h⟩
      · subst h; simp
      · subst h; simp [Fin.succAbove_ne]
    rw [this]
  · have hj := j.2
    rw [get_cat_right _ _ _ _ (by rw [hl]; simp)
        (by rw [hl]; simp [shape_narrow, hx]; omega)
        (by intro k' hk; rw [hl]; simp [hk, shape_narrow]), hl, if_pos rfl,
      get_narrow _ _ _ _ _ (by simp [hx]) (by omega)]
    simp [fib, Fin.tail]

theorem l_projectU_fib (x v : Tensor (m + 1)) (hx : x.shape d = n + 1) (hv : v.shape d = n + 1)
    (i : Fin (m + 1) → ℕ) :
    (LorentzAxis.projectU d k x v).fib d (n + 1) i =
      Lorentz.projectU k (x.fib d (n + 1) i) (v.fib d (n + 1) i) := by
  funext j
  simp only [LorentzAxis.projectU, fib_apply, get_add, get_mul, get_map,
    l_innerK_get d x v hx hv, fib_update, Lorentz.projectU, Pi.add_apply, Pi.smul_apply,
    smul_eq_mul]
  ring

theorem l_geodesicUnit_fib (t x u : Tensor (m + 1)) (ht : t.shape d = 1)
    (i : Fin (m + 1) → ℕ) :
    (LorentzAxis.geodesicUnit k t x u).fib d (n + 1) i =
      Lorentz.geodesicUnitRaw k (t.get i) (x.fib d (n + 1) i) (u.fib d (n + 1) i) := by
  funext j
  simp only [LorentzAxis.geodesicUnit, fib_apply, get_add, get_mul, get_map,
    get_update_one d t ht, Lorentz.geodesicUnitRaw, Pi.add_apply, Pi.smul_apply, smul_eq_mul]

theorem l_projectPolar_fib (x : Tensor (m + 1)) (hx : x.shape d = n + 1)
    (i : Fin (m + 1) → ℕ) :
    (LorentzAxis.projectPolar d k x).fib d (n + 1) i =
      Lorentz.projectPolar k (fun j : Fin n => x.fib d (n + 1) i j.castSucc)
        (x.fib d (n + 1) i (Fin.last n)) := by
  funext j
  simp only [LorentzAxis.projectPolar, fib_apply, Lorentz.projectPolar]
  refine Fin.cases ?_ (fun j => ?_) j
  · rw [get_cat_left _ _ _ _ (by simp [shape_map, shape_narrow]), get_map,
      get_narrow_one _ _ _ (by omega)]
    simp [hx]
  · have hj := j.2
    rw [get_cat_right _ _ _ _ (by simp [shape_map, shape_narrow])
        (by simp [shape_map, shape_narrow, shape_mul, bsize, hx]; omega)
        (by intro k' hk; simp [hk, shape_map, shape_narrow, shape_mul, bsize_self]), get_mul,
      get_map, get_narrow_one _ _ _ (by omega),
      get_narrow _ _ _ _ _ (by simp [hx, shape_map, shape_narrow]) (by omega)]
    simp [hx, shape_map, shape_narrow]

theorem l_ofPoincare_fib (eps : ℝ) (x : Tensor (m + 1)) (hx : x.shape d = n)
    (i : Fin (m + 1) → ℕ) :
    (LorentzAxis.ofPoincare d k eps x).fib d (n + 1) i =
      Lorentz.ofPoincare k eps (x.fib d n i) := by
  have hxx : (x * x).shape d = n := by rw [shape_mul, hx, bsize_self]
  have hs : ∀ i, ((x * x).sumK d).get i = x.fib d n i ⬝ᵥ x.fib d n i := by
    intro i
    rw [get_sumK_fib d _ i hxx, dotProduct]
    simp only [fib_apply, get_mul]
  funext j
  simp only [LorentzAxis.ofPoincare, fib_apply, Lorentz.ofPoincare, get_div, get_map, hs,
    fib_update, Pi.smul_apply, smul_eq_mul]
  have hc : (cat d (((x * x).sumK d).map (1 + ·)) (x.map (2 * ·))).get (Function.update i d ↑j) =
      (Fin.cons (1 + x.fib d n i ⬝ᵥ x.fib d n i) ((2 : ℝ) • x.fib d n i) : Vec (n + 1)) j := by
    refine Fin.cases ?_ (fun j => ?_) j
    · rw [get_cat_left _ _ _ _ (by simp [shape_map, shape_sumK]), get_map, hs]
      simp [fib_update]
    · have hj := j.2
      rw [get_cat_right _ _ _ _ (by simp [shape_map, shape_sumK])
        (by simp [shape_map, shape_sumK, hx]; omega)
        (by intro k' hk; simp [hk, shape_map, shape_sumK, shape_mul, bsize_self]), get_map]
      simp [shape_map, shape_sumK, fib]
  rw [hc]
  ring

end

/-! The functions that lose `dim`, for the last axis. -/

section
variable (k : ℝ)
local notation "L" => Fin.last m

theorem l_normK_get (d : Fin (m + 1)) (u : Tensor (m + 1)) (hu : u.shape L = n + 1)
    (i : Fin (m + 1) → ℕ) :
    (LorentzAxis.normK d u).get i = Lorentz.norm (u.fib L (n + 1) i) := by
  simp only [LorentzAxis.normK, get_map, l_innerK_get L u u hu hu, Lorentz.norm]

theorem l_norm_get (d : Fin (m + 1)) (u : Tensor (m + 1)) (hu : u.shape L = n + 1)
    (i : Fin m → ℕ) :
    (LorentzAxis.norm d u).get i =
      Lorentz.norm (u.fib L (n + 1) ((Fin.last m).insertNth (α := fun _ => ℕ) 0 i)) := by
  simp only [LorentzAxis.norm, get_map, l_inner_get L u u hu hu, Lorentz.norm]

theorem l_expmap_fib (x u : Tensor (m + 1)) (hu : u.shape L = n + 1) (i : Fin (m + 1) → ℕ) :
    (LorentzAxis.expmap L k x u).fib L (n + 1) i =
      Lorentz.expmapRaw k (x.fib L (n + 1) i) (u.fib L (n + 1) i) := by
  funext j
  simp only [LorentzAxis.expmap, fib_apply, get_add, get_mul, get_div, get_map,
    l_normK_get L u hu, fib_update, Lorentz.expmapRaw, Pi.add_apply, Pi.smul_apply, smul_eq_mul]
  ring

theorem l_egrad2rgrad_fib (x g : Tensor (m + 1)) (hx : x.shape L = n + 1)
    (hg : g.shape L = n + 1) (i : Fin (m + 1) → ℕ) :
    (LorentzAxis.egrad2rgrad L k x g).fib L (n + 1) i =
      (Lorentz.egrad2rgrad k (x.fib L (n + 1) i) (g.fib L (n + 1) i)).1 := by
  have hn : ∀ i : Fin (m + 1) → ℕ, (LorentzAxis.negFirstLast g).get i =
      if i L = 0 ∨ n = 0 then g.get i * -1 else g.get i := by
    intro i
    simp only [LorentzAxis.negFirstLast, Tensor.get, bidx, hg]
    have h1 : (n + 1 = 1) ↔ n = 0 := by omega
    by_cases h : n = 0
    · subst h; simp
    · simp [h]
  have hf : (LorentzAxis.negFirstLast g).fib L (n + 1) i =
      Fin.cons (g.fib L (n + 1) i 0 * -1) (Fin.tail (g.fib L (n + 1) i)) := by
    funext j
    rw [fib_apply, hn]
    refine Fin.cases ?_ (fun j => ?_) j
    · simp [fib]
    · have hj := j.2
      have : n ≠ 0 := by omega
      simp [fib, Fin.tail, this]
  have hfs : (LorentzAxis.negFirstLast g).shape L = n + 1 := hg
  funext j
  have hfj := congrFun hf j
  rw [fib_apply] at hfj
  simp only [LorentzAxis.egrad2rgrad, fib_apply, get_add, get_mul, get_map,
    l_innerK_get L x _ hx hfs, fib_update, Lorentz.egrad2rgrad, Pi.add_apply, Pi.smul_apply,
    smul_eq_mul, hf, hfj]
  ring

/-- `torch.cat((a, b), dim=-1)` where `a` has one entry: the fibre is `cons`. -/
theorem cat_cons_fib (d : Fin (m + 1)) (a b : Tensor (m + 1)) (ha : a.shape d = 1)
    (hb : b.shape d = n) (hs : ∀ k, k ≠ d → a.shape k = b.shape k) (i : Fin (m + 1) → ℕ) :
    (cat d a b).fib d (n + 1) i = Fin.cons (a.get i) (b.fib d n i) := by
  funext j
  rw [fib_apply]
  refine Fin.cases ?_ (fun j => ?_) j
  · rw [get_cat_left _ _ _ _ (by simp [ha]), get_update_one d a ha]; rfl
  · have hj := j.2
    rw [get_cat_right _ _ _ _ (by simp [ha]) (by simp [ha, hb]; omega) hs]
    simp [ha, fib]

/-- The fibre of `narrow(d, 1, n)` is the tail. -/
theorem narrow_tail_fib (d : Fin (m + 1)) (a : Tensor (m + 1)) (ha : a.shape d = n + 1)
    (i : Fin (m + 1) → ℕ) : (a.narrow d 1 n).fib d n i = Fin.tail (a.fib d (n + 1) i) := by
  funext j
  have hj := j.2
  rw [fib_apply, get_narrow _ _ _ _ _ (by simp) (by omega)]
  simp [fib, Fin.tail]

/-- `narrow(d, 0, 1)` reads entry `0` of the fibre. -/
theorem narrow_head_get (d : Fin (m + 1)) (a : Tensor (m + 1)) (ha : a.shape d = n + 1)
    (i : Fin (m + 1) → ℕ) : (a.narrow d 0 1).get i = a.fib d (n + 1) i 0 := by
  rw [get_narrow_one _ _ _ (by omega)]; rfl

theorem shape_innerK_last (d : Fin (m + 1)) (u v : Tensor (m + 1)) (k : Fin (m + 1)) :
    (LorentzAxis.innerK d u v).shape k =
      if k = d then 1 else bsize (u.shape k) (v.shape k) := by
  simp only [LorentzAxis.innerK, shape_sumK, shape_cat, shape_neg, shape_narrow, shape_mul]
  by_cases h : k = d <;> simp [h]

theorem shape_l_normK (d : Fin (m + 1)) (u : Tensor (m + 1)) (k : Fin (m + 1)) :
    (LorentzAxis.normK d u).shape k = if k = L then 1 else u.shape k := by
  rw [LorentzAxis.normK, shape_map, shape_innerK_last, bsize_self]

theorem l_expmap0_fib (u : Tensor (m + 1)) (hu : u.shape L = n + 1) (i : Fin (m + 1) → ℕ) :
    (LorentzAxis.expmap0 L k u).fib L (n + 1) i =
      Lorentz.expmap0Raw k (u.fib L (n + 1) i) := by
  set nomin := LorentzAxis.normK L u with hnom
  set rv := (nomin.map fun a => Real.sqrt k * Real.sinh (a / Real.sqrt k)) * u / nomin with hrv
  have hns : ∀ k, nomin.shape k = if k = L then 1 else u.shape k := shape_l_normK L u
  have hrs : ∀ k, rv.shape k = u.shape k := by
    intro k'
    rw [hrv, shape_div, shape_mul, shape_map, hns]
    by_cases h : k' = L
    · rw [if_pos h]; unfold bsize; simp only [if_true]; split_ifs with h1
      · exact h1.symm
      · rfl
    · rw [if_neg h, bsize_self, bsize_self]
  have hr : rv.shape L = n + 1 := by rw [hrs, hu]
  have hrf : rv.fib L (n + 1) i = (Real.sqrt k * Real.sinh (Lorentz.norm (u.fib L (n + 1) i) /
      Real.sqrt k) / Lorentz.norm (u.fib L (n + 1) i)) • u.fib L (n + 1) i := by
    funext j
    rw [fib_apply, hrv, get_div, get_mul, get_map, hnom, l_normK_get L u hu, fib_update]
    simp only [Pi.smul_apply, smul_eq_mul, fib]
    ring
  show (cat L ((nomin.map fun a => Real.cosh (a / Real.sqrt k) * Real.sqrt k) + rv.narrow L 0 1)
    (rv.narrow L 1 (rv.shape L - 1))).fib L (n + 1) i = _
  rw [hr, Nat.add_sub_cancel, cat_cons_fib L _ _ (by simp [shape_add, shape_map, hns,
    shape_narrow, bsize]) (by simp [shape_narrow]) (by
      intro k' hk
      simp [shape_add, shape_map, hns, shape_narrow, hk, hrs, bsize_self]), get_add, get_map,
    narrow_head_get L rv hr, narrow_tail_fib L rv hr, hrf, hnom, l_normK_get L u hu]
  rfl

theorem l_logmap_fib (x y : Tensor (m + 1)) (hx : x.shape L = n + 1) (hy : y.shape L = n + 1)
    (i : Fin (m + 1) → ℕ) :
    (LorentzAxis.logmap L k x y).fib L (n + 1) i =
      Lorentz.logmap k (x.fib L (n + 1) i) (y.fib L (n + 1) i) := by
  set nomin := y + (LorentzAxis.innerK L x y).map (1.0 / k * ·) * x with hnom
  have hs : nomin.shape L = n + 1 := by
    simp [hnom, shape_add, shape_mul, shape_map, shape_innerK_last, hx, hy, bsize]
  have hf : ∀ i, nomin.fib L (n + 1) i = y.fib L (n + 1) i +
      (1.0 / k * Lorentz.inner (x.fib L (n + 1) i) (y.fib L (n + 1) i)) • x.fib L (n + 1) i := by
    intro i
    funext j
    rw [fib_apply, hnom, get_add, get_mul, get_map, l_innerK_get L x y hx hy, fib_update,
      fib_update]
    rfl
  funext j
  show (LorentzAxis.distK L k x y * nomin / LorentzAxis.normK L nomin).fib L (n + 1) i j = _
  rw [fib_apply, get_div, get_mul, l_distK_get L k x y hx hy, l_normK_get L nomin hs, ← fib_apply L
    (n + 1) nomin, hf, hf, fib_update, fib_update]
  simp only [Lorentz.logmap, Pi.smul_apply, smul_eq_mul]
  ring

theorem l_logmap0_fib (y : Tensor (m + 1)) (hy : y.shape L = n + 1) (i : Fin (m + 1) → ℕ) :
    (LorentzAxis.logmap0 L k y).fib L (n + 1) i = Lorentz.logmap0 k (y.fib L (n + 1) i) := by
  set nomin0 := (LorentzAxis.inner0K L k y).map fun a => 1.0 / k * a * Real.sqrt k with hnom0
  set nomin := cat L (nomin0 + y.narrow L 0 1) (y.narrow L 1 n) with hnom
  have h0s : ∀ k, nomin0.shape k = if k = L then 1 else y.shape k := by
    intro k'
    simp [hnom0, shape_map, LorentzAxis.inner0K, shape_neg, shape_narrow]
  have hs : nomin.shape L = n + 1 := by
    simp [hnom, shape_cat, shape_add, h0s, shape_narrow, bsize, add_comm]
  have hf : ∀ i, nomin.fib L (n + 1) i = Fin.cons (1.0 / k * Lorentz.inner0 k (y.fib L (n + 1) i) *
      Real.sqrt k + y.fib L (n + 1) i 0) (Fin.tail (y.fib L (n + 1) i)) := by
    intro i
    rw [hnom, cat_cons_fib L _ _ (by simp [shape_add, h0s, shape_narrow, bsize])
      (by simp [shape_narrow]) (by intro k' hk; simp [shape_add, h0s, shape_narrow, hk, bsize_self]),
      get_add, hnom0, get_map, l_inner0K_get L k y hy, narrow_head_get L y hy,
      narrow_tail_fib L y hy]
  funext j
  have : LorentzAxis.logmap0 L k y = LorentzAxis.dist0K L k y * nomin / LorentzAxis.normK L nomin := by
    rw [hnom, LorentzAxis.logmap0, hy, Nat.add_sub_cancel]
  rw [this, fib_apply, get_div, get_mul, l_dist0K_get L k y hy, l_normK_get L nomin hs,
    ← fib_apply L (n + 1) nomin, hf, hf, fib_update]
  simp only [Lorentz.logmap0, Pi.smul_apply, smul_eq_mul]
  ring

theorem l_logmap0back_fib (x : Tensor (m + 1)) (hx : x.shape L = n + 1) (i : Fin (m + 1) → ℕ) :
    (LorentzAxis.logmap0back L k x).fib L (n + 1) i =
      Lorentz.logmap0back k (x.fib L (n + 1) i) := by
  set nomin' := (LorentzAxis.inner0K L k x).map (1.0 / k * ·) * x with hnom'
  have h0s : ∀ k, nomin'.shape k = x.shape k := by
    intro k'
    by_cases h : k' = L
    · subst h
      simp [hnom', shape_mul, shape_map, LorentzAxis.inner0K, shape_neg, shape_narrow, bsize]
    · simp [hnom', shape_mul, shape_map, LorentzAxis.inner0K, shape_neg, shape_narrow, h,
        bsize_self]
  have hs' : nomin'.shape L = n + 1 := by rw [h0s, hx]
  set nomin := cat L ((nomin'.narrow L 0 1).map (· + Real.sqrt k)) (nomin'.narrow L 1 n) with hnom
  have hs : nomin.shape L = n + 1 := by
    simp [hnom, shape_cat, shape_map, shape_narrow, add_comm]
  have hf' : ∀ i, nomin'.fib L (n + 1) i =
      (1.0 / k * Lorentz.inner0 k (x.fib L (n + 1) i)) • x.fib L (n + 1) i := by
    intro i
    funext j
    rw [fib_apply, hnom', get_mul, get_map, l_inner0K_get L k x hx, fib_update]
    rfl
  have hf : ∀ i, nomin.fib L (n + 1) i = Fin.cons (((1.0 / k * Lorentz.inner0 k
      (x.fib L (n + 1) i)) • x.fib L (n + 1) i) 0 + Real.sqrt k)
      (Fin.tail ((1.0 / k * Lorentz.inner0 k (x.fib L (n + 1) i)) • x.fib L (n + 1) i)) := by
    intro i
    rw [hnom, cat_cons_fib L _ _ (by simp [shape_map, shape_narrow])
      (by simp [shape_narrow]) (by intro k' hk; simp [shape_map, shape_narrow, hk]),
      get_map, narrow_head_get L nomin' hs', narrow_tail_fib L nomin' hs', hf']
  funext j
  have : LorentzAxis.logmap0back L k x =
      LorentzAxis.dist0K L k x * nomin / LorentzAxis.normK L nomin := by
    rw [hnom, LorentzAxis.logmap0back]
    simp only [← hnom', hs', Nat.add_sub_cancel]
  rw [this, fib_apply, get_div, get_mul, l_dist0K_get L k x hx, l_normK_get L nomin hs,
    ← fib_apply L (n + 1) nomin, hf, hf, fib_update]
  simp only [Lorentz.logmap0back, Pi.smul_apply, smul_eq_mul]
  ring

theorem shape_l_logmap (x y : Tensor (m + 1)) (hx : x.shape L = n + 1) (hy : y.shape L = n + 1) :
    (LorentzAxis.logmap L k x y).shape L = n + 1 := by
  simp [LorentzAxis.logmap, shape_div, shape_mul, shape_l_normK, LorentzAxis.distK, shape_map,
    shape_neg, shape_innerK_last, shape_add, hx, hy, bsize]

theorem shape_l_logmap0 (y : Tensor (m + 1)) (hy : y.shape L = n + 1) :
    (LorentzAxis.logmap0 L k y).shape L = n + 1 := by
  simp [LorentzAxis.logmap0, shape_div, shape_mul, shape_l_normK, LorentzAxis.dist0K, shape_map,
    shape_neg, LorentzAxis.inner0K, shape_narrow, shape_cat, shape_add, hy, bsize, add_comm]

theorem shape_l_logmap0back (y : Tensor (m + 1)) (hy : y.shape L = n + 1) :
    (LorentzAxis.logmap0back L k y).shape L = n + 1 := by
  simp [LorentzAxis.logmap0back, shape_div, shape_mul, shape_l_normK, LorentzAxis.dist0K,
    shape_map, shape_neg, LorentzAxis.inner0K, shape_narrow, shape_cat, hy, bsize,
    add_comm]

theorem l_transp_fib (x y v : Tensor (m + 1)) (hx : x.shape L = n + 1) (hy : y.shape L = n + 1)
    (hv : v.shape L = n + 1) (i : Fin (m + 1) → ℕ) :
    (LorentzAxis.transp L k x y v).fib L (n + 1) i =
      Lorentz.transp k (x.fib L (n + 1) i) (y.fib L (n + 1) i) (v.fib L (n + 1) i) := by
  funext j
  simp only [LorentzAxis.transp, fib_apply, get_sub, get_mul, get_div, get_map, get_add,
    l_innerK_get L _ v (shape_l_logmap k x y hx hy) hv, l_distK_get L k x y hx hy, fib_update,
    l_logmap_fib k x y hx hy]
  rw [← fib_apply L (n + 1) (LorentzAxis.logmap L k x y), ← fib_apply L (n + 1)
    (LorentzAxis.logmap L k y x), l_logmap_fib k x y hx hy, l_logmap_fib k y x hy hx]
  rfl

theorem l_transp0_fib (y v : Tensor (m + 1)) (hy : y.shape L = n + 1)
    (hv : v.shape L = n + 1) (i : Fin (m + 1) → ℕ) :
    (LorentzAxis.transp0 L k y v).fib L (n + 1) i =
      Lorentz.transp0 k (y.fib L (n + 1) i) (v.fib L (n + 1) i) := by
  funext j
  simp only [LorentzAxis.transp0, fib_apply, get_sub, get_mul, get_div, get_map, get_add,
    l_innerK_get L _ v (shape_l_logmap0 k y hy) hv, l_dist0K_get L k y hy, fib_update,
    l_logmap0_fib k y hy]
  rw [← fib_apply L (n + 1) (LorentzAxis.logmap0 L k y), ← fib_apply L (n + 1)
    (LorentzAxis.logmap0back L k y), l_logmap0_fib k y hy, l_logmap0back_fib k y hy]
  rfl

theorem l_transp0back_fib (x v : Tensor (m + 1)) (hx : x.shape L = n + 1)
    (hv : v.shape L = n + 1) (i : Fin (m + 1) → ℕ) :
    (LorentzAxis.transp0back L k x v).fib L (n + 1) i =
      Lorentz.transp0back k (x.fib L (n + 1) i) (v.fib L (n + 1) i) := by
  funext j
  simp only [LorentzAxis.transp0back, fib_apply, get_sub, get_mul, get_div, get_map, get_add,
    l_innerK_get L _ v (shape_l_logmap0back k x hx) hv, l_dist0K_get L k x hx, fib_update,
    l_logmap0back_fib k x hx]
  rw [← fib_apply L (n + 1) (LorentzAxis.logmap0 L k x), ← fib_apply L (n + 1)
    (LorentzAxis.logmap0back L k x), l_logmap0_fib k x hx, l_logmap0back_fib k x hx]
  rfl

end
end Geoopt.AxisFib
