import Verif.Proof.Sprp.Data
import Verif.Proof.Sprp.Sound
/-! No composite with all prime factors below 65536 passes (largest prime number 250 to 6538). -/
namespace Verif.Sprp

theorem roots_250 : roots tab 300 250 50 = true := by decide +kernel
theorem roots_300 : roots tab 400 300 50 = true := by decide +kernel
theorem roots_350 : roots tab 400 350 50 = true := by decide +kernel
theorem roots_400 : roots tab 400 400 50 = true := by decide +kernel
theorem roots_450 : roots tab 400 450 50 = true := by decide +kernel
theorem roots_500 : roots tab 300 500 200 = true := by decide +kernel
theorem roots_700 : roots tab 300 700 200 = true := by decide +kernel
theorem roots_900 : roots tab 300 900 200 = true := by decide +kernel
theorem roots_1100 : roots tab 300 1100 200 = true := by decide +kernel
theorem roots_1300 : roots tab 300 1300 200 = true := by decide +kernel
theorem roots_1500 : roots tab 300 1500 200 = true := by decide +kernel
theorem roots_1700 : roots tab 300 1700 200 = true := by decide +kernel
theorem roots_1900 : roots tab 300 1900 200 = true := by decide +kernel
theorem roots_2100 : roots tab 300 2100 200 = true := by decide +kernel
theorem roots_2300 : roots tab 300 2300 200 = true := by decide +kernel
theorem roots_2500 : roots tab 300 2500 200 = true := by decide +kernel
theorem roots_2700 : roots tab 300 2700 200 = true := by decide +kernel
theorem roots_2900 : roots tab 300 2900 200 = true := by decide +kernel
theorem roots_3100 : roots tab 300 3100 200 = true := by decide +kernel
theorem roots_3300 : roots tab 300 3300 200 = true := by decide +kernel
theorem roots_3500 : roots tab 300 3500 200 = true := by decide +kernel
theorem roots_3700 : roots tab 300 3700 200 = true := by decide +kernel
theorem roots_3900 : roots tab 300 3900 200 = true := by decide +kernel
theorem roots_4100 : roots tab 300 4100 200 = true := by decide +kernel
theorem roots_4300 : roots tab 300 4300 200 = true := by decide +kernel
theorem roots_4500 : roots tab 300 4500 200 = true := by decide +kernel
theorem roots_4700 : roots tab 300 4700 200 = true := by decide +kernel
theorem roots_4900 : roots tab 300 4900 200 = true := by decide +kernel
theorem roots_5100 : roots tab 300 5100 200 = true := by decide +kernel
theorem roots_5300 : roots tab 300 5300 200 = true := by decide +kernel
theorem roots_5500 : roots tab 300 5500 200 = true := by decide +kernel
theorem roots_5700 : roots tab 300 5700 200 = true := by decide +kernel
theorem roots_5900 : roots tab 300 5900 200 = true := by decide +kernel
theorem roots_6100 : roots tab 300 6100 200 = true := by decide +kernel
theorem roots_6300 : roots tab 300 6300 200 = true := by decide +kernel
theorem roots_6500 : roots tab 300 6500 39 = true := by decide +kernel

theorem root_all_B : ∀ i, 250 ≤ i → i < 6539 → ∃ T, root tab T i = true := by
  intro i h0 hi
  by_cases h300 : i < 300
  · have h := (allBelow_iff _ _).1 roots_250 (i - 250) (by omega)
    rw [show Nat.add 250 (i - 250) = i from Nat.add_sub_cancel' (by omega)] at h
    exact ⟨_, h⟩
  by_cases h350 : i < 350
  · have h := (allBelow_iff _ _).1 roots_300 (i - 300) (by omega)
    rw [show Nat.add 300 (i - 300) = i from Nat.add_sub_cancel' (by omega)] at h
    exact ⟨_, h⟩
  by_cases h400 : i < 400
  · have h := (allBelow_iff _ _).1 roots_350 (i - 350) (by omega)
    rw [show Nat.add 350 (i - 350) = i from Nat.add_sub_cancel' (by omega)] at h
    exact ⟨_, h⟩
  by_cases h450 : i < 450
  · have h := (allBelow_iff _ _).1 roots_400 (i - 400) (by omega)
    rw [show Nat.add 400 (i - 400) = i from Nat.add_sub_cancel' (by omega)] at h
    exact ⟨_, h⟩
  by_cases h500 : i < 500
  · have h := (allBelow_iff _ _).1 roots_450 (i - 450) (by omega)
    rw [show Nat.add 450 (i - 450) = i from Nat.add_sub_cancel' (by omega)] at h
    exact ⟨_, h⟩
  by_cases h700 : i < 700
  · have h := (allBelow_iff _ _).1 roots_500 (i - 500) (by omega)
    rw [show Nat.add 500 (i - 500) = i from Nat.add_sub_cancel' (by omega)] at h
    exact ⟨_, h⟩
  by_cases h900 : i < 900
  · have h := (allBelow_iff _ _).1 roots_700 (i - 700) (by omega)
    rw [show Nat.add 700 (i - 700) = i from Nat.add_sub_cancel' (by omega)] at h
    exact ⟨_, h⟩
  by_cases h1100 : i < 1100
  · have h := (allBelow_iff _ _).1 roots_900 (i - 900) (by omega)
    rw [show Nat.add 900 (i - 900) = i from Nat.add_sub_cancel' (by omega)] at h
    exact ⟨_, h⟩
  by_cases h1300 : i < 1300
  · have h := (allBelow_iff _ _).1 roots_1100 (i - 1100) (by omega)
    rw [show Nat.add 1100 (i - 1100) = i from Nat.add_sub_cancel' (by omega)] at h
    exact ⟨_, h⟩
  by_cases h1500 : i < 1500
  · have h := (allBelow_iff _ _).1 roots_1300 (i - 1300) (by omega)
    rw [show Nat.add 1300 (i - 1300) = i from Nat.add_sub_cancel' (by omega)] at h
    exact ⟨_, h⟩
  by_cases h1700 : i < 1700
  · have h := (allBelow_iff _ _).1 roots_1500 (i - 1500) (by omega)
    rw [show Nat.add 1500 (i - 1500) = i from Nat.add_sub_cancel' (by omega)] at h
    exact ⟨_, h⟩
  by_cases h1900 : i < 1900
  · have h := (allBelow_iff _ _).1 roots_1700 (i - 1700) (by omega)
    rw [show Nat.add 1700 (i - 1700) = i from Nat.add_sub_cancel' (by omega)] at h
    exact ⟨_, h⟩
  by_cases h2100 : i < 2100
  · have h := (allBelow_iff _ _).1 roots_1900 (i - 1900) (by omega)
    rw [show Nat.add 1900 (i - 1900) = i from Nat.add_sub_cancel' (by omega)] at h
    exact ⟨_, h⟩
  by_cases h2300 : i < 2300
  · have h := (allBelow_iff _ _).1 roots_2100 (i - 2100) (by omega)
    rw [show Nat.add 2100 (i - 2100) = i from Nat.add_sub_cancel' (by omega)] at h
    exact ⟨_, h⟩
  by_cases h2500 : i < 2500
  · have h := (allBelow_iff _ _).1 roots_2300 (i - 2300) (by omega)
    rw [show Nat.add 2300 (i - 2300) = i from Nat.add_sub_cancel' (by omega)] at h
    exact ⟨_, h⟩
  by_cases h2700 : i < 2700
  · have h := (allBelow_iff _ _).1 roots_2500 (i - 2500) (by omega)
    rw [show Nat.add 2500 (i - 2500) = i from Nat.add_sub_cancel' (by omega)] at h
    exact ⟨_, h⟩
  by_cases h2900 : i < 2900
  · have h := (allBelow_iff _ _).1 roots_2700 (i - 2700) (by omega)
    rw [show Nat.add 2700 (i - 2700) = i from Nat.add_sub_cancel' (by omega)] at h
    exact ⟨_, h⟩
  by_cases h3100 : i < 3100
  · have h := (allBelow_iff _ _).1 roots_2900 (i - 2900) (by omega)
    rw [show Nat.add 2900 (i - 2900) = i from Nat.add_sub_cancel' (by omega)] at h
    exact ⟨_, h⟩
  by_cases h3300 : i < 3300
  · have h := (allBelow_iff _ _).1 roots_3100 (i - 3100) (by omega)
    rw [show Nat.add 3100 (i - 3100) = i from Nat.add_sub_cancel' (by omega)] at h
    exact ⟨_, h⟩
  by_cases h3500 : i < 3500
  · have h := (allBelow_iff _ _).1 roots_3300 (i - 3300) (by omega)
    rw [show Nat.add 3300 (i - 3300) = i from Nat.add_sub_cancel' (by omega)] at h
    exact ⟨_, h⟩
  by_cases h3700 : i < 3700
  · have h := (allBelow_iff _ _).1 roots_3500 (i - 3500) (by omega)
    rw [show Nat.add 3500 (i - 3500) = i from Nat.add_sub_cancel' (by omega)] at h
    exact ⟨_, h⟩
  by_cases h3900 : i < 3900
  · have h := (allBelow_iff _ _).1 roots_3700 (i - 3700) (by omega)
    rw [show Nat.add 3700 (i - 3700) = i from Nat.add_sub_cancel' (by omega)] at h
    exact ⟨_, h⟩
  by_cases h4100 : i < 4100
  · have h := (allBelow_iff _ _).1 roots_3900 (i - 3900) (by omega)
    rw [show Nat.add 3900 (i - 3900) = i from Nat.add_sub_cancel' (by omega)] at h
    exact ⟨_, h⟩
  by_cases h4300 : i < 4300
  · have h := (allBelow_iff _ _).1 roots_4100 (i - 4100) (by omega)
    rw [show Nat.add 4100 (i - 4100) = i from Nat.add_sub_cancel' (by omega)] at h
    exact ⟨_, h⟩
  by_cases h4500 : i < 4500
  · have h := (allBelow_iff _ _).1 roots_4300 (i - 4300) (by omega)
    rw [show Nat.add 4300 (i - 4300) = i from Nat.add_sub_cancel' (by omega)] at h
    exact ⟨_, h⟩
  by_cases h4700 : i < 4700
  · have h := (allBelow_iff _ _).1 roots_4500 (i - 4500) (by omega)
    rw [show Nat.add 4500 (i - 4500) = i from Nat.add_sub_cancel' (by omega)] at h
    exact ⟨_, h⟩
  by_cases h4900 : i < 4900
  · have h := (allBelow_iff _ _).1 roots_4700 (i - 4700) (by omega)
    rw [show Nat.add 4700 (i - 4700) = i from Nat.add_sub_cancel' (by omega)] at h
    exact ⟨_, h⟩
  by_cases h5100 : i < 5100
  · have h := (allBelow_iff _ _).1 roots_4900 (i - 4900) (by omega)
    rw [show Nat.add 4900 (i - 4900) = i from Nat.add_sub_cancel' (by omega)] at h
    exact ⟨_, h⟩
  by_cases h5300 : i < 5300
  · have h := (allBelow_iff _ _).1 roots_5100 (i - 5100) (by omega)
    rw [show Nat.add 5100 (i - 5100) = i from Nat.add_sub_cancel' (by omega)] at h
    exact ⟨_, h⟩
  by_cases h5500 : i < 5500
  · have h := (allBelow_iff _ _).1 roots_5300 (i - 5300) (by omega)
    rw [show Nat.add 5300 (i - 5300) = i from Nat.add_sub_cancel' (by omega)] at h
    exact ⟨_, h⟩
  by_cases h5700 : i < 5700
  · have h := (allBelow_iff _ _).1 roots_5500 (i - 5500) (by omega)
    rw [show Nat.add 5500 (i - 5500) = i from Nat.add_sub_cancel' (by omega)] at h
    exact ⟨_, h⟩
  by_cases h5900 : i < 5900
  · have h := (allBelow_iff _ _).1 roots_5700 (i - 5700) (by omega)
    rw [show Nat.add 5700 (i - 5700) = i from Nat.add_sub_cancel' (by omega)] at h
    exact ⟨_, h⟩
  by_cases h6100 : i < 6100
  · have h := (allBelow_iff _ _).1 roots_5900 (i - 5900) (by omega)
    rw [show Nat.add 5900 (i - 5900) = i from Nat.add_sub_cancel' (by omega)] at h
    exact ⟨_, h⟩
  by_cases h6300 : i < 6300
  · have h := (allBelow_iff _ _).1 roots_6100 (i - 6100) (by omega)
    rw [show Nat.add 6100 (i - 6100) = i from Nat.add_sub_cancel' (by omega)] at h
    exact ⟨_, h⟩
  by_cases h6500 : i < 6500
  · have h := (allBelow_iff _ _).1 roots_6300 (i - 6300) (by omega)
    rw [show Nat.add 6300 (i - 6300) = i from Nat.add_sub_cancel' (by omega)] at h
    exact ⟨_, h⟩
  · have h := (allBelow_iff _ _).1 roots_6500 (i - 6500) (by omega)
    rw [show Nat.add 6500 (i - 6500) = i from Nat.add_sub_cancel' (by omega)] at h
    exact ⟨_, h⟩

end Verif.Sprp
