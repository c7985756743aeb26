import Verif.Model.Matrix
import Mathlib.Analysis.SpecialFunctions.Trigonometric.Basic
import Mathlib.Data.ZMod.Basic
import Mathlib.Logic.Equiv.Fin.Basic
import Mathlib.Data.Fintype.EquivFin
import Mathlib.Data.List.OfFn
import Mathlib.Tactic.LinearCombination
import Mathlib.Tactic.FinCases

/-!
# C61: `rotate`
-/

set_option linter.unusedSectionVars false

namespace Verif
open Mat

/-! ## Rounding -/

theorem roundEven_near (x : ℝ) (n : ℤ) (h : |x - n| < 1 / 2) : Mat.roundEven x = n := by
  rw [abs_lt] at h
  simp only [Mat.roundEven]
  by_cases hx : (n : ℝ) ≤ x
  · have hf : ⌊x⌋ = n := Int.floor_eq_iff.2 ⟨hx, by linarith⟩
    rw [hf, if_pos (by linarith)]
  · push Not at hx
    have hf : ⌊x⌋ = n - 1 := Int.floor_eq_iff.2 ⟨by push_cast; linarith, by push_cast; linarith⟩
    rw [hf, if_neg (by push_cast; linarith), if_pos (by push_cast; linarith)]
    ring

theorem around10_near (x : ℝ) (z : ℤ) (h : |x - z| ≤ 1 / 10 ^ 11) : around10 x = z := by
  have e : |x * 10 ^ 10 - ((z * 10 ^ 10 : ℤ) : ℝ)| < 1 / 2 := by
    rw [show ((z * 10 ^ 10 : ℤ) : ℝ) = (z : ℝ) * 10 ^ 10 by norm_num, ← sub_mul, abs_mul,
      abs_of_pos (by norm_num : (0 : ℝ) < 10 ^ 10)]
    calc |x - z| * 10 ^ 10 ≤ 1 / 10 ^ 11 * 10 ^ 10 := by gcongr
      _ < 1 / 2 := by norm_num
  rw [around10, roundEven_near _ _ e, show ((z * 10 ^ 10 : ℤ) : ℝ) = (z : ℝ) * 10 ^ 10 by norm_num]
  field_simp

theorem roundEven_mono_bound (x : ℝ) (N : ℕ) (h : |x| ≤ N) : |(Mat.roundEven x : ℝ)| ≤ N := by
  rw [abs_le] at h ⊢
  have key : -(N : ℤ) ≤ Mat.roundEven x ∧ Mat.roundEven x ≤ N := by
    have hf1 : -(N : ℤ) ≤ ⌊x⌋ := Int.le_floor.2 (by push_cast; exact h.1)
    have hf2 : ⌊x⌋ ≤ N := by
      have := Int.floor_le x
      have h2 : (⌊x⌋ : ℝ) ≤ N := this.trans h.2
      exact_mod_cast h2
    have hlt : ¬ (x - ⌊x⌋ < 1 / 2) → ⌊x⌋ + 1 ≤ N := by
      intro hh
      push Not at hh
      have : (⌊x⌋ : ℝ) < N := by linarith [h.2]
      have : ⌊x⌋ < (N : ℤ) := by exact_mod_cast this
      omega
    simp only [Mat.roundEven]
    by_cases h1 : x - ⌊x⌋ < 1 / 2
    · rw [if_pos h1]; exact ⟨hf1, hf2⟩
    · rw [if_neg h1]
      have := hlt h1
      split_ifs <;> constructor <;> omega
  constructor
  · exact_mod_cast key.1
  · exact_mod_cast key.2

theorem around10_bound (x : ℝ) (h : |x| ≤ 1) : |around10 x| ≤ 1 := by
  have e : |x * 10 ^ 10| ≤ ((10 ^ 10 : ℕ) : ℝ) := by
    rw [abs_mul, abs_of_pos (by norm_num : (0 : ℝ) < 10 ^ 10)]
    push_cast
    linarith [mul_le_mul_of_nonneg_right h (by norm_num : (0 : ℝ) ≤ 10 ^ 10)]
  have := roundEven_mono_bound _ _ e
  rw [around10, abs_div, abs_of_pos (by norm_num : (0 : ℝ) < 10 ^ 10), div_le_one (by norm_num)]
  exact_mod_cast this

theorem mat_trunc_int (z : ℤ) : Mat.trunc (z : ℝ) = z := by
  simp only [Mat.trunc]; split <;> simp

theorem trunc_bound (x : ℝ) (N : ℤ) (h : |x| ≤ N) : -N ≤ Mat.trunc x ∧ Mat.trunc x ≤ N := by
  rw [abs_le] at h
  simp only [Mat.trunc]
  split
  · rename_i h0
    refine ⟨?_, ?_⟩
    · have : (0 : ℤ) ≤ ⌊x⌋ := Int.floor_nonneg.2 h0
      have h1 : (0 : ℝ) ≤ N := by linarith
      have : (0 : ℤ) ≤ N := by exact_mod_cast h1
      omega
    · have : (⌊x⌋ : ℝ) ≤ N := (Int.floor_le x).trans h.2
      exact_mod_cast this
  · rename_i h0
    push Not at h0
    refine ⟨?_, Int.ceil_le.2 h.2⟩
    have : ((-N : ℤ) : ℝ) ≤ ⌈x⌉ := by push_cast; exact h.1.trans (Int.le_ceil x)
    exact_mod_cast this

/-! ## Quarter turns -/

/-- The cosine and sine of `kπ/2` are the integers `1,0 / 0,1 / -1,0 / 0,-1`. -/
theorem quarter_trig (k : ℤ) : ∃ c s : ℤ, Real.cos (k * (Real.pi / 2)) = c ∧ Real.sin (k * (Real.pi / 2)) = s ∧
    ((c = 1 ∧ s = 0) ∨ (c = 0 ∧ s = 1) ∨ (c = -1 ∧ s = 0) ∨ (c = 0 ∧ s = -1)) := by
  induction k using Int.induction_on with
  | zero => exact ⟨1, 0, by simp, by simp, .inl ⟨rfl, rfl⟩⟩
  | succ k ih =>
    obtain ⟨c, s, hc, hs, h⟩ := ih
    refine ⟨-s, c, ?_, ?_, ?_⟩
    · rw [show (((k : ℤ) + 1 : ℤ) : ℝ) * (Real.pi / 2) = ((k : ℤ) : ℝ) * (Real.pi / 2) + Real.pi / 2 by push_cast; ring,
        Real.cos_add_pi_div_two, hs]; push_cast; ring
    · rw [show (((k : ℤ) + 1 : ℤ) : ℝ) * (Real.pi / 2) = ((k : ℤ) : ℝ) * (Real.pi / 2) + Real.pi / 2 by push_cast; ring,
        Real.sin_add_pi_div_two, hc]
    · omega
  | pred k ih =>
    obtain ⟨c, s, hc, hs, h⟩ := ih
    refine ⟨s, -c, ?_, ?_, ?_⟩
    · rw [show ((-(k : ℤ) - 1 : ℤ) : ℝ) * (Real.pi / 2) = ((-(k : ℤ) : ℤ) : ℝ) * (Real.pi / 2) - Real.pi / 2 by push_cast; ring,
        Real.cos_sub_pi_div_two, hs]
    · rw [show ((-(k : ℤ) - 1 : ℤ) : ℝ) * (Real.pi / 2) = ((-(k : ℤ) : ℤ) : ℝ) * (Real.pi / 2) - Real.pi / 2 by push_cast; ring,
        Real.sin_sub_pi_div_two, hc]; push_cast; ring
    · omega

theorem turn_quarter (C S : ℝ) (c s : ℤ) (hc : |C - c| ≤ 1 / 10 ^ 11) (hs : |S - s| ≤ 1 / 10 ^ 11) (a b : ℤ) :
    turn C S a b = (a * c + b * s, -(a * s) + b * c) := by
  have h1 := around10_near C c hc
  have h2 := around10_near S s hs
  have h3 := around10_near (-S) (-s) (by push_cast; rw [show -S - -(s : ℝ) = -(S - s) by ring, abs_neg]; exact hs)
  simp only [turn, h1, h2, h3]
  have e1 : (a : ℝ) * c + b * s = ((a * c + b * s : ℤ) : ℝ) := by push_cast; ring
  have e2 : (a : ℝ) * ((-s : ℤ) : ℝ) + b * c = ((-(a * s) + b * c : ℤ) : ℝ) := by push_cast; ring
  rw [e1, e2, mat_trunc_int, mat_trunc_int]

theorem pyIndex_wrap (n : ℕ) (hn : 0 < n) (x : ℤ) (h1 : -(n : ℤ) ≤ x) (h2 : x < 2 * n) :
    pyIndex n (wrapHigh n x) = .ok (x % n).toNat := by
  have hn' : (0 : ℤ) < n := by exact_mod_cast hn
  unfold wrapHigh
  by_cases ha : (n : ℤ) ≤ x
  · have e : x % n = x - n := by
      rw [← Int.sub_emod_right, Int.emod_eq_of_lt (by omega) (by omega)]
    rw [if_pos ha, pyIndex, if_pos ⟨by omega, by omega⟩, e]
  · rw [if_neg ha, pyIndex]
    by_cases hb : 0 ≤ x
    · rw [if_pos ⟨hb, by omega⟩, Int.emod_eq_of_lt hb (by omega)]
    · have e : x % n = x + n := by
        rw [← Int.add_emod_right, Int.emod_eq_of_lt (by omega) (by omega)]
      rw [if_neg (by omega), if_pos ⟨by omega, by omega⟩, e]

/-- The pixel read by a quarter turn: the rotation about `((n-1)/2, (n-1)/2)`, modulo `n`. -/
theorem source_quarter (n : ℕ) (C S : ℝ) (c s : ℤ) (hc : |C - c| ≤ 1 / 10 ^ 11) (hs : |S - s| ≤ 1 / 10 ^ 11)
    (hcs : (c = 1 ∧ s = 0) ∨ (c = 0 ∧ s = 1) ∨ (c = -1 ∧ s = 0) ∨ (c = 0 ∧ s = -1))
    (i j : ℕ) (hi : i < n) (hj : j < n) :
    source n C S i j = .ok
      (((((i : ℤ) - ((n : ℤ) - 1) / 2) * c + ((j : ℤ) - ((n : ℤ) - 1) / 2) * s + ((n : ℤ) - 1) / 2) % n).toNat,
       ((-(((i : ℤ) - ((n : ℤ) - 1) / 2) * s) + ((j : ℤ) - ((n : ℤ) - 1) / 2) * c + ((n : ℤ) - 1) / 2) % n).toNat) := by
  have hn : 0 < n := by omega
  simp only [source, turn_quarter C S c s hc hs]
  rw [pyIndex_wrap n hn, pyIndex_wrap n hn]
  all_goals rcases hcs with ⟨rfl, rfl⟩ | ⟨rfl, rfl⟩ | ⟨rfl, rfl⟩ | ⟨rfl, rfl⟩ <;> omega

theorem mapM_ok {α β : Type} (l : List α) (f : α → Py β) (g : α → β) (h : ∀ a ∈ l, f a = .ok (g a)) :
    l.mapM f = .ok (l.map g) := by
  induction l with
  | nil => rfl
  | cons a l ih =>
    rw [List.mapM_cons, h a (List.mem_cons_self ..), ih fun b hb => h b (List.mem_cons_of_mem _ hb)]
    rfl

theorem range_map_ofFn {α : Type} (n : ℕ) (f : ℕ → α) : (List.range n).map f = List.ofFn fun i : Fin n => f i := by
  apply List.ext_getElem <;> simp

theorem rotate_of_source {α : Type} (n : ℕ) (hn : 0 < n) (m : ℕ → ℕ → α) (C S : ℝ) (f : ℕ → ℕ → ℕ × ℕ)
    (h : ∀ i j, i < n → j < n → source n C S i j = .ok (f i j)) :
    rotate n n m C S = .ok (List.ofFn fun i : Fin n => List.ofFn fun j : Fin n => m (f i j).1 (f i j).2) := by
  simp only [rotate, ne_eq, not_true_eq_false, if_false, hn.ne']
  rw [mapM_ok _ _ (fun i => (List.range n).map fun j => m (f i j).1 (f i j).2)]
  · rw [range_map_ofFn]
    congr 1
    congr 1
    funext i
    rw [range_map_ofFn]
  · intro i hi
    apply mapM_ok
    intro j hj
    rw [h i j (List.mem_range.1 hi) (List.mem_range.1 hj)]

/-- C61: for every quarter turn `angle = kπ/2`, even if cosine and sine are computed with errors up to `1e-11`,
`rotate` of an `n × n` image permutes its pixels: there is one permutation `σ` of the pixels, of order dividing
four, such that for every image the output pixel `(i, j)` is the input pixel `σ (i, j)`. -/
theorem C61_quarter_turn_permutes (n : ℕ) (hn : 0 < n) (k : ℤ) (C S : ℝ)
    (hC : |C - Real.cos (k * (Real.pi / 2))| ≤ 1 / 10 ^ 11) (hS : |S - Real.sin (k * (Real.pi / 2))| ≤ 1 / 10 ^ 11) :
    ∃ σ : Equiv.Perm (Fin n × Fin n), σ ^ 4 = 1 ∧ ∀ (α : Type) (m : ℕ → ℕ → α),
      rotate n n m C S =
        .ok (List.ofFn fun i : Fin n => List.ofFn fun j : Fin n => m (σ (i, j)).1 (σ (i, j)).2) := by
  obtain ⟨c, s, hc, hs, hcs⟩ := quarter_trig k
  rw [hc] at hC
  rw [hs] at hS
  have : NeZero n := ⟨hn.ne'⟩
  set h : ℤ := ((n : ℤ) - 1) / 2
  set X : Fin n × Fin n → ℤ := fun p => ((p.1.val : ℤ) - h) * c + ((p.2.val : ℤ) - h) * s + h with hX
  set Y : Fin n × Fin n → ℤ := fun p => -(((p.1.val : ℤ) - h) * s) + ((p.2.val : ℤ) - h) * c + h with hY
  have hn' : (0 : ℤ) < n := by exact_mod_cast hn
  have lt : ∀ x : ℤ, (x % n).toNat < n := fun x => by
    have := Int.emod_lt_of_pos x hn'; have := Int.emod_nonneg x hn'.ne'; omega
  set F : Fin n × Fin n → Fin n × Fin n := fun p => (⟨(X p % n).toNat, lt _⟩, ⟨(Y p % n).toNat, lt _⟩) with hF
  have castF1 : ∀ p, (((F p).1.val : ℤ) : ZMod n) = (X p : ZMod n) := by
    intro p
    have : (((X p % n).toNat : ℤ)) = X p % n := Int.toNat_of_nonneg (Int.emod_nonneg _ hn'.ne')
    simp only [hF]
    rw [this]; simp
  have castF2 : ∀ p, (((F p).2.val : ℤ) : ZMod n) = (Y p : ZMod n) := by
    intro p
    have : (((Y p % n).toNat : ℤ)) = Y p % n := Int.toNat_of_nonneg (Int.emod_nonneg _ hn'.ne')
    simp only [hF]
    rw [this]; simp
  have inj0 : ∀ a b : Fin n, (((a.val : ℤ) : ZMod n)) = ((b.val : ℤ) : ZMod n) → a = b := by
    intro a b hab
    rw [Int.cast_natCast, Int.cast_natCast, ZMod.natCast_eq_natCast_iff', Nat.mod_eq_of_lt a.2, Nat.mod_eq_of_lt b.2] at hab
    exact Fin.ext hab
  have h4 : ∀ p, F (F (F (F p))) = p := by
    intro p
    have cs : ((c : ZMod n) ^ 4 - 6 * c ^ 2 * s ^ 2 + s ^ 4 = 1) ∧ ((c : ZMod n) ^ 3 * s - c * s ^ 3 = 0) := by
      rcases hcs with ⟨rfl, rfl⟩ | ⟨rfl, rfl⟩ | ⟨rfl, rfl⟩ | ⟨rfl, rfl⟩ <;> push_cast <;> constructor <;> ring
    have r1 : ∀ p, (((F p).1.val : ℤ) : ZMod n) - h = (((p.1.val : ℤ) : ZMod n) - h) * c + (((p.2.val : ℤ) : ZMod n) - h) * s := by
      intro p; rw [castF1, hX]; push_cast; ring
    have r2 : ∀ p, (((F p).2.val : ℤ) : ZMod n) - h = -((((p.1.val : ℤ) : ZMod n) - h) * s) + (((p.2.val : ℤ) : ZMod n) - h) * c := by
      intro p; rw [castF2, hY]; push_cast; ring
    refine Prod.ext (inj0 _ _ ?_) (inj0 _ _ ?_)
    · have := r1 (F (F (F p)))
      rw [r1 (F (F p)), r2 (F (F p)), r1 (F p), r2 (F p), r1 p, r2 p] at this
      linear_combination this + (((p.1.val : ℤ) : ZMod n) - h) * cs.1 + 4 * (((p.2.val : ℤ) : ZMod n) - h) * cs.2
    · have := r2 (F (F (F p)))
      rw [r1 (F (F p)), r2 (F (F p)), r1 (F p), r2 (F p), r1 p, r2 p] at this
      linear_combination this + (((p.2.val : ℤ) : ZMod n) - h) * cs.1 - 4 * (((p.1.val : ℤ) : ZMod n) - h) * cs.2
  refine ⟨⟨F, fun p => F (F (F p)), h4, fun p => h4 p⟩, ?_, fun α m => ?_⟩
  · ext1 p
    exact h4 p
  · rw [rotate_of_source n hn m C S (fun i j =>
      ((((i : ℤ) - h) * c + ((j : ℤ) - h) * s + h) % n |>.toNat, (-(((i : ℤ) - h) * s) + ((j : ℤ) - h) * c + h) % n |>.toNat))
      (fun i j hi hj => source_quarter n C S c s hC hS hcs i j hi hj)]
    rfl

/-- C61: four quarter turns give back the image, whatever the (possibly different) rounding errors of the four
computed angles. -/
theorem C61_four_quarter_turns {α : Type} (n : ℕ) (hn : 0 < n) (k : ℤ) (C S : Fin 4 → ℝ)
    (hC : ∀ t, |C t - Real.cos (k * (Real.pi / 2))| ≤ 1 / 10 ^ 11)
    (hS : ∀ t, |S t - Real.sin (k * (Real.pi / 2))| ≤ 1 / 10 ^ 11) (m₀ m₁ m₂ m₃ m₄ : ℕ → ℕ → α)
    (h₁ : rotate n n m₀ (C 0) (S 0) = .ok (List.ofFn fun i : Fin n => List.ofFn fun j : Fin n => m₁ i j))
    (h₂ : rotate n n m₁ (C 1) (S 1) = .ok (List.ofFn fun i : Fin n => List.ofFn fun j : Fin n => m₂ i j))
    (h₃ : rotate n n m₂ (C 2) (S 2) = .ok (List.ofFn fun i : Fin n => List.ofFn fun j : Fin n => m₃ i j))
    (h₄ : rotate n n m₃ (C 3) (S 3) = .ok (List.ofFn fun i : Fin n => List.ofFn fun j : Fin n => m₄ i j)) :
    ∀ i j, i < n → j < n → m₄ i j = m₀ i j := by
  -- the permutation does not depend on the rounding errors
  have hex : ∀ C₀ S₀ : ℝ, |C₀ - Real.cos (k * (Real.pi / 2))| ≤ 1 / 10 ^ 11 →
      |S₀ - Real.sin (k * (Real.pi / 2))| ≤ 1 / 10 ^ 11 → ∀ m : ℕ → ℕ → α,
      rotate n n m C₀ S₀ = rotate n n m (C 0) (S 0) := by
    intro C₀ S₀ hC₀ hS₀ m
    obtain ⟨c, s, hc, hs, hcs⟩ := quarter_trig k
    have a := hC 0
    have b := hS 0
    rw [hc] at a hC₀
    rw [hs] at b hS₀
    rw [rotate_of_source n hn m _ _ _ (fun i j hi hj => source_quarter n C₀ S₀ c s hC₀ hS₀ hcs i j hi hj),
      rotate_of_source n hn m _ _ _ (fun i j hi hj => source_quarter n (C 0) (S 0) c s a b hcs i j hi hj)]
  rw [hex _ _ (hC 1) (hS 1)] at h₂
  rw [hex _ _ (hC 2) (hS 2)] at h₃
  rw [hex _ _ (hC 3) (hS 3)] at h₄
  obtain ⟨σ, hσ, hm⟩ := C61_quarter_turn_permutes n hn k (C 0) (S 0) (hC 0) (hS 0)
  have ext : ∀ (m m' : ℕ → ℕ → α), rotate n n m (C 0) (S 0) =
      .ok (List.ofFn fun i : Fin n => List.ofFn fun j : Fin n => m' i j) → ∀ p : Fin n × Fin n,
      m' p.1 p.2 = m (σ p).1 (σ p).2 := by
    intro m m' h p
    rw [hm] at h
    have h := List.ofFn_injective (Except.ok.inj h)
    have h := List.ofFn_injective (congrFun h p.1)
    exact (congrFun h p.2).symm
  intro i j hi hj
  have e := ext m₃ m₄ h₄ (⟨i, hi⟩, ⟨j, hj⟩)
  rw [ext m₂ m₃ h₃, ext m₁ m₂ h₂, ext m₀ m₁ h₁] at e
  have : σ (σ (σ (σ (⟨i, hi⟩, ⟨j, hj⟩)))) = (⟨i, hi⟩, ⟨j, hj⟩) := by
    have := congrArg (fun τ : Equiv.Perm (Fin n × Fin n) => τ (⟨i, hi⟩, ⟨j, hj⟩)) hσ
    simpa [pow_succ, Equiv.Perm.mul_apply] using this
  rw [this] at e
  exact e

/-- C61: for odd sizes a quarter turn is the geometric one: the output pixel `(i, j)` is the input pixel
`(j, n-1-i)`. -/
theorem C61_odd_is_geometric {α : Type} (n : ℕ) (hodd : n % 2 = 1) (C S : ℝ)
    (hC : |C - Real.cos (Real.pi / 2)| ≤ 1 / 10 ^ 11) (hS : |S - Real.sin (Real.pi / 2)| ≤ 1 / 10 ^ 11)
    (m : ℕ → ℕ → α) :
    rotate n n m C S = .ok (List.ofFn fun i : Fin n => List.ofFn fun j : Fin n => m j (n - 1 - i)) := by
  have hn : 0 < n := by omega
  rw [rotate_of_source n hn m C S (fun i j => (j, n - 1 - i))]
  intro i j hi hj
  rw [source_quarter n C S 0 1 (by simpa using hC) (by simpa using hS) (by omega) i j hi hj]
  have e1 : (((i : ℤ) - ((n : ℤ) - 1) / 2) * 0 + ((j : ℤ) - ((n : ℤ) - 1) / 2) * 1 + ((n : ℤ) - 1) / 2) = j := by omega
  have e2 : (-(((i : ℤ) - ((n : ℤ) - 1) / 2) * 1) + ((j : ℤ) - ((n : ℤ) - 1) / 2) * 0 + ((n : ℤ) - 1) / 2) =
      (n : ℤ) - 1 - i := by omega
  rw [e1, e2, Int.emod_eq_of_lt (by omega) (by omega), Int.emod_eq_of_lt (by omega) (by omega)]
  congr 2
  omega

/-- C61: for even sizes it is not: the output pixel `(i, j)` is the input pixel `(j, n-2-i)`, the last row wrapping
round to column `n-1`. -/
theorem C61_even_is_shifted {α : Type} (n : ℕ) (hn : 0 < n) (heven : n % 2 = 0) (C S : ℝ)
    (hC : |C - Real.cos (Real.pi / 2)| ≤ 1 / 10 ^ 11) (hS : |S - Real.sin (Real.pi / 2)| ≤ 1 / 10 ^ 11)
    (m : ℕ → ℕ → α) :
    rotate n n m C S = .ok (List.ofFn fun i : Fin n => List.ofFn fun j : Fin n =>
      m j (if i.val = n - 1 then n - 1 else n - 2 - i)) := by
  rw [rotate_of_source n hn m C S (fun i j => (j, if i = n - 1 then n - 1 else n - 2 - i))]
  intro i j hi hj
  rw [source_quarter n C S 0 1 (by simpa using hC) (by simpa using hS) (by omega) i j hi hj]
  have e1 : (((i : ℤ) - ((n : ℤ) - 1) / 2) * 0 + ((j : ℤ) - ((n : ℤ) - 1) / 2) * 1 + ((n : ℤ) - 1) / 2) = j := by omega
  have e2 : (-(((i : ℤ) - ((n : ℤ) - 1) / 2) * 1) + ((j : ℤ) - ((n : ℤ) - 1) / 2) * 0 + ((n : ℤ) - 1) / 2) =
      (n : ℤ) - 2 - i := by omega
  rw [e1, e2, Int.emod_eq_of_lt (by omega) (by omega)]
  congr 2
  by_cases h : i = n - 1
  · rw [if_pos h, ← Int.add_emod_right, Int.emod_eq_of_lt (by omega) (by omega)]
    omega
  · rw [if_neg h, Int.emod_eq_of_lt (by omega) (by omega)]
    omega

/-- C61: `rotate` never raises for a non-empty square matrix, at any angle: every pixel it reads exists (after
wrapping). -/
theorem C61_never_out_of_range {α : Type} (n : ℕ) (hn : 0 < n) (C S : ℝ) (hC : |C| ≤ 1) (hS : |S| ≤ 1)
    (m : ℕ → ℕ → α) : ∃ out, rotate n n m C S = .ok out := by
  have hsrc : ∀ i j, i < n → j < n → ∃ p, source n C S i j = .ok p := by
    intro i j hi hj
    have hs' : |-S| ≤ 1 := by rwa [abs_neg]
    have b1 := around10_bound C hC
    have b2 := around10_bound S hS
    have b3 := around10_bound (-S) hs'
    set h : ℤ := ((n : ℤ) - 1) / 2 with hh
    have ha : |((i : ℤ) - h)| ≤ (n : ℤ) - 1 - h := by rw [abs_le]; constructor <;> omega
    have hb : |((j : ℤ) - h)| ≤ (n : ℤ) - 1 - h := by rw [abs_le]; constructor <;> omega
    have hpos : (0 : ℤ) ≤ (n : ℤ) - 1 - h := by omega
    have bound : ∀ (a b : ℤ) (x y : ℝ), |a| ≤ (n : ℤ) - 1 - h → |b| ≤ (n : ℤ) - 1 - h → |x| ≤ 1 → |y| ≤ 1 →
        |(a : ℝ) * x + b * y| ≤ ((2 * ((n : ℤ) - 1 - h) : ℤ) : ℝ) := by
      intro a b x y h1 h2 h3 h4
      have h1' : |(a : ℝ)| ≤ (((n : ℤ) - 1 - h : ℤ) : ℝ) := by exact_mod_cast h1
      have h2' : |(b : ℝ)| ≤ (((n : ℤ) - 1 - h : ℤ) : ℝ) := by exact_mod_cast h2
      have p0 : (0 : ℝ) ≤ (((n : ℤ) - 1 - h : ℤ) : ℝ) := by exact_mod_cast hpos
      calc |(a : ℝ) * x + b * y| ≤ |(a : ℝ) * x| + |(b : ℝ) * y| := abs_add_le _ _
        _ = |(a : ℝ)| * |x| + |(b : ℝ)| * |y| := by rw [abs_mul, abs_mul]
        _ ≤ (((n : ℤ) - 1 - h : ℤ) : ℝ) * 1 + (((n : ℤ) - 1 - h : ℤ) : ℝ) * 1 := by gcongr
        _ = _ := by push_cast; ring
    have t1 := trunc_bound _ _ (bound _ _ _ _ ha hb b1 b2)
    have t2 := trunc_bound _ _ (bound _ _ _ _ ha hb b3 b1)
    simp only [source, turn, ← hh]
    rw [pyIndex_wrap n hn _ (by omega) (by omega), pyIndex_wrap n hn _ (by omega) (by omega)]
    exact ⟨_, rfl⟩
  refine ⟨_, rotate_of_source n hn m C S (fun i j => if h : i < n ∧ j < n then (hsrc i j h.1 h.2).choose else (0, 0)) ?_⟩
  intro i j hi hj
  rw [dif_pos ⟨hi, hj⟩]
  exact (hsrc i j hi hj).choose_spec

/-- C61: non-square matrices raise `ValueError`. -/
theorem C61_not_square {α : Type} (r q : ℕ) (h : r ≠ q) (m : ℕ → ℕ → α) (C S : ℝ) :
    rotate r q m C S = .error .valueError := by
  simp [rotate, h]

/-- Non-vacuity: the documented example, `rotate(arange(9).reshape(3, 3), π/2)`. -/
example : rotate 3 3 (fun i j => 3 * i + j) (Real.cos (Real.pi / 2)) (Real.sin (Real.pi / 2)) =
    .ok [[2, 5, 8], [1, 4, 7], [0, 3, 6]] := by
  rw [C61_odd_is_geometric 3 rfl _ _ (by simp) (by simp)]
  simp [List.ofFn_succ]

end Verif
