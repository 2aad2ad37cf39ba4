import Verif.Proof.Sprp.Data
import Verif.Proof.Sprp.Sound
/-! No composite with all prime factors below 65536 passes (largest prime number 0 to 249). -/
namespace Verif.Sprp

theorem roots_0 : roots tab 300 0 25 = true := by decide +kernel
theorem roots_25 : roots tab 300 25 25 = true := by decide +kernel
theorem roots_50 : roots tab 300 50 25 = true := by decide +kernel
theorem roots_75 : roots tab 300 75 25 = true := by decide +kernel
theorem roots_100 : roots tab 300 100 50 = true := by decide +kernel
theorem roots_150 : roots tab 300 150 50 = true := by decide +kernel
theorem roots_200 : roots tab 300 200 50 = true := by decide +kernel

theorem root_all_A : ∀ i < 250, ∃ T, root tab T i = true := by
  intro i hi
  by_cases h25 : i < 25
  · have h := (allBelow_iff _ _).1 roots_0 (i - 0) (by omega)
    rw [show Nat.add 0 (i - 0) = i from Nat.add_sub_cancel' (by omega)] at h
    exact ⟨_, h⟩
  by_cases h50 : i < 50
  · have h := (allBelow_iff _ _).1 roots_25 (i - 25) (by omega)
    rw [show Nat.add 25 (i - 25) = i from Nat.add_sub_cancel' (by omega)] at h
    exact ⟨_, h⟩
  by_cases h75 : i < 75
  · have h := (allBelow_iff _ _).1 roots_50 (i - 50) (by omega)
    rw [show Nat.add 50 (i - 50) = i from Nat.add_sub_cancel' (by omega)] at h
    exact ⟨_, h⟩
  by_cases h100 : i < 100
  · have h := (allBelow_iff _ _).1 roots_75 (i - 75) (by omega)
    rw [show Nat.add 75 (i - 75) = i from Nat.add_sub_cancel' (by omega)] at h
    exact ⟨_, h⟩
  by_cases h150 : i < 150
  · have h := (allBelow_iff _ _).1 roots_100 (i - 100) (by omega)
    rw [show Nat.add 100 (i - 100) = i from Nat.add_sub_cancel' (by omega)] at h
    exact ⟨_, h⟩
  by_cases h200 : i < 200
  · have h := (allBelow_iff _ _).1 roots_150 (i - 150) (by omega)
    rw [show Nat.add 150 (i - 150) = i from Nat.add_sub_cancel' (by omega)] at h
    exact ⟨_, h⟩
  · have h := (allBelow_iff _ _).1 roots_200 (i - 200) (by omega)
    rw [show Nat.add 200 (i - 200) = i from Nat.add_sub_cancel' (by omega)] at h
    exact ⟨_, h⟩

end Verif.Sprp
