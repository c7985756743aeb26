import Verif.Model.Backend
import Mathlib.Tactic.Common

/-!
# C74: backend selection; C92, C93: moving and converting arrays
-/

namespace Verif
open Backend

variable {D : Type}

/-- An array of a library can only exist if the library is installed. -/
def Possible (inst : Installed) : Val D → Prop
  | .arr l _ _ => inst.has l = true
  | .tensor _ _ _ => inst.torch = true
  | .other _ => True

/-- The returned module is always installed, the returned name is its name, the request is honoured
exactly when the named library is known and installed, and a warning is issued exactly otherwise (the
fallback being numpy). -/
theorem C74_get_backend (inst : Installed) (name : String) :
    let r := getBackend inst name
    inst.has r.1 = true ∧ r.2.1 = r.1.name ∧
    (r.2.2 = false ↔ ∃ l : Lib, name = l.name ∧ inst.has l = true) ∧
    (r.2.2 = false → r.2.1 = name) ∧ (r.2.2 = true → r.1 = .numpy) := by
  have inj : ∀ l : Lib, libOf l.name = some l := by intro l; cases l <;> decide
  have rev : ∀ l, libOf name = some l → name = l.name := by
    intro l h
    unfold libOf at h
    split_ifs at h <;> (cases h; assumption)
  intro r
  cases h : libOf name with
  | none =>
    have e : r = (.numpy, "numpy", true) := by simp [r, getBackend, h]
    rw [e]
    refine ⟨rfl, rfl, ⟨fun h' => by simp at h', ?_⟩, fun h' => by simp at h', fun _ => rfl⟩
    rintro ⟨l, rfl, -⟩
    rw [inj] at h
    cases h
  | some l =>
    have hn := rev l h
    subst hn
    cases hi : inst.has l with
    | true =>
      have e : r = (l, l.name, false) := by simp [r, getBackend, h, hi]
      rw [e]
      exact ⟨hi, rfl, ⟨fun _ => ⟨l, rfl, hi⟩, fun _ => rfl⟩, fun _ => rfl, fun h' => by simp at h'⟩
    | false =>
      have e : r = (.numpy, "numpy", true) := by simp [r, getBackend, h, hi]
      rw [e]
      refine ⟨rfl, rfl, ⟨fun h' => by simp at h', ?_⟩, fun h' => by simp at h', fun _ => rfl⟩
      rintro ⟨l', hl, hi'⟩
      have : l = l' := by
        have := inj l
        rw [hl, inj] at this
        exact (Option.some.inj this).symm
      rw [← this, hi] at hi'
      cases hi'

/-- The module of an array is its library. -/
theorem C74_array_module (inst : Installed) (l : Lib) (d : D) (i : ℕ)
    (h : Possible inst (.arr l d i)) : getArrayModule inst (.arr l d i) = l := by
  cases l with
  | numpy => rfl
  | cupy => simp only [Possible, Installed.has] at h; simp [getArrayModule, h]
  | tensorflow => simp only [Possible, Installed.has] at h; simp [getArrayModule, h]

/-- For arrays, `change_backend` returns the same object if it already belongs to the library the request
resolves to, and otherwise hands it to that library; so the result is an array of that library whenever
the library's own `array` function returns one.  Without the requested library numpy is the target. -/
theorem C74_change_backend (inst : Installed) (mk : Lib → Val D → Py (Val D)) (l : Lib) (d : D) (i : ℕ)
    (name : String) (h : Possible inst (.arr l d i)) :
    let target := (getBackend inst name).1
    (l = target → changeBackend inst mk (.arr l d i) name = .ok (.arr l d i)) ∧
    (l ≠ target → changeBackend inst mk (.arr l d i) name = mk target (.arr l d i)) ∧
    ((∀ l' v r, mk l' v = .ok r → ∃ d' i', r = .arr l' d' i') → ∀ r,
      changeBackend inst mk (.arr l d i) name = .ok r → ∃ d' i', r = .arr target d' i') := by
  intro target
  have hm := C74_array_module inst l d i h
  refine ⟨fun e => ?_, fun e => ?_, fun hmk r hr => ?_⟩
  · simp only [changeBackend, hm]
    rw [if_pos e]
  · simp only [changeBackend, hm]
    rw [if_neg e]
  · simp only [changeBackend, hm] at hr
    by_cases e : l = target
    · rw [if_pos e] at hr
      cases hr
      exact ⟨d, i, by rw [e]⟩
    · rw [if_neg e] at hr
      exact hmk _ _ _ hr

/-- A value that is not an array of any library is returned as it is when numpy is the target, so the
result of `change_backend` need not be an array. -/
theorem C74_non_arrays_pass_through (inst : Installed) (mk : Lib → Val D → Py (Val D)) (i : ℕ) :
    changeBackend inst mk (.other i) "numpy" = .ok (.other i) := rfl

/-- With every package installed all three requests are honoured. -/
example : (getBackend ⟨true, true, true⟩ "cupy").1 = .cupy ∧
    (getBackend ⟨true, true, true⟩ "tensorflow").1 = .tensorflow ∧
    (getBackend ⟨false, true, true⟩ "cupy") = (.numpy, "numpy", true) ∧
    (getBackend ⟨true, true, true⟩ "torch") = (.numpy, "numpy", true) := by decide

/-! ## Moving to the CPU (C92) -/

/-- `move_to_cpu` on arrays: numpy arrays are returned unchanged (the same object), others go through the
transfer routine of their own library. -/
theorem C92_arrays_are_moved_partial (inst : Installed) (get tfNumpy : Val D → Py (Val D)) (l : Lib) (d : D) (i : ℕ)
    (h : Possible inst (.arr l d i)) :
    moveToCpu inst get tfNumpy (.arr l d i) = match l with
      | .numpy => .ok (.arr .numpy d i)
      | .cupy => get (.arr .cupy d i)
      | .tensorflow => tfNumpy (.arr .tensorflow d i) := by
  have hm := C74_array_module inst l d i h
  simp only [moveToCpu, hm]
  cases l with
  | numpy => rfl
  | cupy => simp only [Possible, Installed.has] at h; simp [h]
  | tensorflow => simp only [Possible, Installed.has] at h; simp [h]

/-- The documented `ValueError` for values that are no arrays is never raised: whatever is installed and
whatever the value, non-arrays (torch tensors included, even those on a GPU) are returned unchanged, and
no value makes `move_to_cpu` itself raise. -/
theorem C92_never_rejects (inst : Installed) (get tfNumpy : Val D → Py (Val D)) :
    (∀ i, moveToCpu inst get tfNumpy (.other i) = .ok (.other i)) ∧
    (∀ c d i, moveToCpu inst get tfNumpy (.tensor c d i) = .ok (.tensor c d i)) ∧
    ∀ v, (∀ u, get u ≠ .error .valueError) → (∀ u, tfNumpy u ≠ .error .valueError) →
      moveToCpu inst get tfNumpy v ≠ .error .valueError := by
  refine ⟨fun i => rfl, fun c d i => rfl, fun v h1 h2 => ?_⟩
  cases v with
  | other i => exact fun e => by cases e
  | tensor c d i => exact fun e => by cases e
  | arr l d i =>
    cases l with
    | numpy => exact fun e => by cases e
    | cupy =>
      cases hc : inst.cupy with
      | true => simpa [moveToCpu, getArrayModule, hc] using h1 _
      | false => simp [moveToCpu, getArrayModule, hc]
    | tensorflow =>
      cases hc : inst.tensorflow with
      | true => simpa [moveToCpu, getArrayModule, hc] using h2 _
      | false => simp [moveToCpu, getArrayModule, hc]

/-! ## Conversions to and from torch (C93) -/

/-- GPU tensors become CuPy arrays, numpy arrays become tensors, CuPy arrays become tensors through
DLPack, and both conversions raise `ImportError` without torch. -/
theorem C93_conversions_partial (inst : Installed) (mkTensor fromDl toNumpy : Val D → Py (Val D)) (v : Val D) :
    (inst.torch = false → convertToTensor inst mkTensor fromDl v = .error .importError ∧
      convertToCupy inst fromDl toNumpy v = .error .importError) ∧
    (inst.torch = true →
      (∀ d i, convertToTensor inst mkTensor fromDl (.arr .numpy d i) = mkTensor (.arr .numpy d i)) ∧
      (inst.cupy = true → (∀ d i, convertToTensor inst mkTensor fromDl (.arr .cupy d i) = fromDl (.arr .cupy d i)) ∧
        ∀ d i, convertToCupy inst fromDl toNumpy (.tensor true d i) = fromDl (.tensor true d i))) := by
  refine ⟨fun h => by simp [convertToTensor, convertToCupy, h], fun h => ⟨fun d i => ?_, fun hc => ⟨fun d i => ?_, fun d i => ?_⟩⟩⟩
  · simp [convertToTensor, h, getArrayModule]
  · simp [convertToTensor, h, getArrayModule, hc]
  · simp [convertToCupy, h, hc]

/-- C93: a GPU tensor is converted only if CuPy is installed; otherwise `NameError` is raised (not the
`ImportError` of the missing PyTorch). -/
theorem C93_gpu_tensor_needs_cupy (inst : Installed) (fromDl toNumpy : Val D → Py (Val D)) (d : D) (i : ℕ)
    (h : inst.torch = true) : convertToCupy inst fromDl toNumpy (.tensor true d i) =
      if inst.cupy = true then fromDl (.tensor true d i) else .error .nameError := by
  simp [convertToCupy, h]

example (d : ℕ) : convertToCupy ⟨false, true, true⟩ (fun v => .ok v) (fun v => .ok v) (.tensor true d 0) = .error .nameError := by
  rw [C93_gpu_tensor_needs_cupy _ _ _ _ _ rfl]; rfl

/-- `convert_to_cupy_array` does not return a CuPy array for a CPU tensor but what `.detach().numpy()`
gives, even when CuPy is installed; and `convert_to_tensor` fails on TensorFlow arrays. -/
theorem C93_cpu_tensor_gives_numpy (inst : Installed) (mkTensor fromDl toNumpy : Val D → Py (Val D))
    (ht : inst.torch = true) (hnp : ∀ d i, toNumpy (.tensor false d i) = .ok (.arr .numpy d i)) :
    (∀ d i, convertToCupy inst fromDl toNumpy (.tensor false d i) = .ok (.arr .numpy d i)) ∧
    (inst.tensorflow = true → ∀ d i,
      convertToTensor inst mkTensor fromDl (.arr .tensorflow d i) = .error .attributeError) := by
  refine ⟨fun d i => by simp [convertToCupy, ht, hnp], fun h d i => ?_⟩
  simp [convertToTensor, ht, getArrayModule, h]

/-- `convert_to_cupy_array` raises `AttributeError` for everything but tensors, arrays that are already CuPy arrays
included; `convert_to_tensor` passes tensors and other objects to `torch.Tensor`. -/
theorem C93_cupy_rejects_non_tensors (inst : Installed) (mkTensor fromDl toNumpy : Val D → Py (Val D))
    (ht : inst.torch = true) (l : Lib) (d : D) (i : ℕ) (b : Bool) :
    convertToCupy inst fromDl toNumpy (.arr l d i) = .error .attributeError ∧
      convertToCupy inst fromDl toNumpy (.other i) = .error .attributeError ∧
      convertToTensor inst mkTensor fromDl (.tensor b d i) = mkTensor (.tensor b d i) ∧
      convertToTensor inst mkTensor fromDl (.other i) = mkTensor (.other i) := by
  refine ⟨?_, ?_, ?_, ?_⟩ <;> simp [convertToCupy, convertToTensor, ht, getArrayModule]

end Verif
