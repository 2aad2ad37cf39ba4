import Verif.Proof.Sprp.Data
import Verif.Proof.Sprp.Sound
/-! No prime is missing from the table. -/
namespace Verif.Sprp

theorem gaps_50 : gaps tab smallP 50 200 = true := by decide +kernel
theorem gaps_250 : gaps tab smallP 250 200 = true := by decide +kernel
theorem gaps_450 : gaps tab smallP 450 200 = true := by decide +kernel
theorem gaps_650 : gaps tab smallP 650 200 = true := by decide +kernel
theorem gaps_850 : gaps tab smallP 850 200 = true := by decide +kernel
theorem gaps_1050 : gaps tab smallP 1050 200 = true := by decide +kernel
theorem gaps_1250 : gaps tab smallP 1250 200 = true := by decide +kernel
theorem gaps_1450 : gaps tab smallP 1450 200 = true := by decide +kernel
theorem gaps_1650 : gaps tab smallP 1650 200 = true := by decide +kernel
theorem gaps_1850 : gaps tab smallP 1850 200 = true := by decide +kernel
theorem gaps_2050 : gaps tab smallP 2050 200 = true := by decide +kernel
theorem gaps_2250 : gaps tab smallP 2250 200 = true := by decide +kernel
theorem gaps_2450 : gaps tab smallP 2450 200 = true := by decide +kernel
theorem gaps_2650 : gaps tab smallP 2650 200 = true := by decide +kernel
theorem gaps_2850 : gaps tab smallP 2850 200 = true := by decide +kernel
theorem gaps_3050 : gaps tab smallP 3050 200 = true := by decide +kernel
theorem gaps_3250 : gaps tab smallP 3250 200 = true := by decide +kernel
theorem gaps_3450 : gaps tab smallP 3450 200 = true := by decide +kernel
theorem gaps_3650 : gaps tab smallP 3650 200 = true := by decide +kernel
theorem gaps_3850 : gaps tab smallP 3850 200 = true := by decide +kernel
theorem gaps_4050 : gaps tab smallP 4050 200 = true := by decide +kernel
theorem gaps_4250 : gaps tab smallP 4250 200 = true := by decide +kernel
theorem gaps_4450 : gaps tab smallP 4450 200 = true := by decide +kernel
theorem gaps_4650 : gaps tab smallP 4650 200 = true := by decide +kernel
theorem gaps_4850 : gaps tab smallP 4850 200 = true := by decide +kernel
theorem gaps_5050 : gaps tab smallP 5050 200 = true := by decide +kernel
theorem gaps_5250 : gaps tab smallP 5250 200 = true := by decide +kernel
theorem gaps_5450 : gaps tab smallP 5450 200 = true := by decide +kernel
theorem gaps_5650 : gaps tab smallP 5650 200 = true := by decide +kernel
theorem gaps_5850 : gaps tab smallP 5850 200 = true := by decide +kernel
theorem gaps_6050 : gaps tab smallP 6050 200 = true := by decide +kernel
theorem gaps_6250 : gaps tab smallP 6250 200 = true := by decide +kernel
theorem gaps_6450 : gaps tab smallP 6450 88 = true := by decide +kernel

theorem gap_all : ∀ i, 50 ≤ i → i < 6538 → gap tab smallP i = true := by
  intro i h0 hi
  by_cases h250 : i < 250
  · have h := (allBelow_iff _ _).1 gaps_50 (i - 50) (by omega)
    rw [show Nat.add 50 (i - 50) = i from Nat.add_sub_cancel' (by omega)] at h
    exact h
  by_cases h450 : i < 450
  · have h := (allBelow_iff _ _).1 gaps_250 (i - 250) (by omega)
    rw [show Nat.add 250 (i - 250) = i from Nat.add_sub_cancel' (by omega)] at h
    exact h
  by_cases h650 : i < 650
  · have h := (allBelow_iff _ _).1 gaps_450 (i - 450) (by omega)
    rw [show Nat.add 450 (i - 450) = i from Nat.add_sub_cancel' (by omega)] at h
    exact h
  by_cases h850 : i < 850
  · have h := (allBelow_iff _ _).1 gaps_650 (i - 650) (by omega)
    rw [show Nat.add 650 (i - 650) = i from Nat.add_sub_cancel' (by omega)] at h
    exact h
  by_cases h1050 : i < 1050
  · have h := (allBelow_iff _ _).1 gaps_850 (i - 850) (by omega)
    rw [show Nat.add 850 (i - 850) = i from Nat.add_sub_cancel' (by omega)] at h
    exact h
  by_cases h1250 : i < 1250
  · have h := (allBelow_iff _ _).1 gaps_1050 (i - 1050) (by omega)
    rw [show Nat.add 1050 (i - 1050) = i from Nat.add_sub_cancel' (by omega)] at h
    exact h
  by_cases h1450 : i < 1450
  · have h := (allBelow_iff _ _).1 gaps_1250 (i - 1250) (by omega)
    rw [show Nat.add 1250 (i - 1250) = i from Nat.add_sub_cancel' (by omega)] at h
    exact h
  by_cases h1650 : i < 1650
  · have h := (allBelow_iff _ _).1 gaps_1450 (i - 1450) (by omega)
    rw [show Nat.add 1450 (i - 1450) = i from Nat.add_sub_cancel' (by omega)] at h
    exact h
  by_cases h1850 : i < 1850
  · have h := (allBelow_iff _ _).1 gaps_1650 (i - 1650) (by omega)
    rw [show Nat.add 1650 (i - 1650) = i from Nat.add_sub_cancel' (by omega)] at h
    exact h
  by_cases h2050 : i < 2050
  · have h := (allBelow_iff _ _).1 gaps_1850 (i - 1850) (by omega)
    rw [show Nat.add 1850 (i - 1850) = i from Nat.add_sub_cancel' (by omega)] at h
    exact h
  by_cases h2250 : i < 2250
  · have h := (allBelow_iff _ _).1 gaps_2050 (i - 2050) (by omega)
    rw [show Nat.add 2050 (i - 2050) = i from Nat.add_sub_cancel' (by omega)] at h
    exact h
  by_cases h2450 : i < 2450
  · have h := (allBelow_iff _ _).1 gaps_2250 (i - 2250) (by omega)
    rw [show Nat.add 2250 (i - 2250) = i from Nat.add_sub_cancel' (by omega)] at h
    exact h
  by_cases h2650 : i < 2650
  · have h := (allBelow_iff _ _).1 gaps_2450 (i - 2450) (by omega)
    rw [show Nat.add 2450 (i - 2450) = i from Nat.add_sub_cancel' (by omega)] at h
    exact h
  by_cases h2850 : i < 2850
  · have h := (allBelow_iff _ _).1 gaps_2650 (i - 2650) (by omega)
    rw [show Nat.add 2650 (i - 2650) = i from Nat.add_sub_cancel' (by omega)] at h
    exact h
  by_cases h3050 : i < 3050
  · have h := (allBelow_iff _ _).1 gaps_2850 (i - 2850) (by omega)
    rw [show Nat.add 2850 (i - 2850) = i from Nat.add_sub_cancel' (by omega)] at h
    exact h
  by_cases h3250 : i < 3250
  · have h := (allBelow_iff _ _).1 gaps_3050 (i - 3050) (by omega)
    rw [show Nat.add 3050 (i - 3050) = i from Nat.add_sub_cancel' (by omega)] at h
    exact h
  by_cases h3450 : i < 3450
  · have h := (allBelow_iff _ _).1 gaps_3250 (i - 3250) (by omega)
    rw [show Nat.add 3250 (i - 3250) = i from Nat.add_sub_cancel' (by omega)] at h
    exact h
  by_cases h3650 : i < 3650
  · have h := (allBelow_iff _ _).1 gaps_3450 (i - 3450) (by omega)
    rw [show Nat.add 3450 (i - 3450) = i from Nat.add_sub_cancel' (by omega)] at h
    exact h
  by_cases h3850 : i < 3850
  · have h := (allBelow_iff _ _).1 gaps_3650 (i - 3650) (by omega)
    rw [show Nat.add 3650 (i - 3650) = i from Nat.add_sub_cancel' (by omega)] at h
    exact h
  by_cases h4050 : i < 4050
  · have h := (allBelow_iff _ _).1 gaps_3850 (i - 3850) (by omega)
    rw [show Nat.add 3850 (i - 3850) = i from Nat.add_sub_cancel' (by omega)] at h
    exact h
  by_cases h4250 : i < 4250
  · have h := (allBelow_iff _ _).1 gaps_4050 (i - 4050) (by omega)
    rw [show Nat.add 4050 (i - 4050) = i from Nat.add_sub_cancel' (by omega)] at h
    exact h
  by_cases h4450 : i < 4450
  · have h := (allBelow_iff _ _).1 gaps_4250 (i - 4250) (by omega)
    rw [show Nat.add 4250 (i - 4250) = i from Nat.add_sub_cancel' (by omega)] at h
    exact h
  by_cases h4650 : i < 4650
  · have h := (allBelow_iff _ _).1 gaps_4450 (i - 4450) (by omega)
    rw [show Nat.add 4450 (i - 4450) = i from Nat.add_sub_cancel' (by omega)] at h
    exact h
  by_cases h4850 : i < 4850
  · have h := (allBelow_iff _ _).1 gaps_4650 (i - 4650) (by omega)
    rw [show Nat.add 4650 (i - 4650) = i from Nat.add_sub_cancel' (by omega)] at h
    exact h
  by_cases h5050 : i < 5050
  · have h := (allBelow_iff _ _).1 gaps_4850 (i - 4850) (by omega)
    rw [show Nat.add 4850 (i - 4850) = i from Nat.add_sub_cancel' (by omega)] at h
    exact h
  by_cases h5250 : i < 5250
  · have h := (allBelow_iff _ _).1 gaps_5050 (i - 5050) (by omega)
    rw [show Nat.add 5050 (i - 5050) = i from Nat.add_sub_cancel' (by omega)] at h
    exact h
  by_cases h5450 : i < 5450
  · have h := (allBelow_iff _ _).1 gaps_5250 (i - 5250) (by omega)
    rw [show Nat.add 5250 (i - 5250) = i from Nat.add_sub_cancel' (by omega)] at h
    exact h
  by_cases h5650 : i < 5650
  · have h := (allBelow_iff _ _).1 gaps_5450 (i - 5450) (by omega)
    rw [show Nat.add 5450 (i - 5450) = i from Nat.add_sub_cancel' (by omega)] at h
    exact h
  by_cases h5850 : i < 5850
  · have h := (allBelow_iff _ _).1 gaps_5650 (i - 5650) (by omega)
    rw [show Nat.add 5650 (i - 5650) = i from Nat.add_sub_cancel' (by omega)] at h
    exact h
  by_cases h6050 : i < 6050
  · have h := (allBelow_iff _ _).1 gaps_5850 (i - 5850) (by omega)
    rw [show Nat.add 5850 (i - 5850) = i from Nat.add_sub_cancel' (by omega)] at h
    exact h
  by_cases h6250 : i < 6250
  · have h := (allBelow_iff _ _).1 gaps_6050 (i - 6050) (by omega)
    rw [show Nat.add 6050 (i - 6050) = i from Nat.add_sub_cancel' (by omega)] at h
    exact h
  by_cases h6450 : i < 6450
  · have h := (allBelow_iff _ _).1 gaps_6250 (i - 6250) (by omega)
    rw [show Nat.add 6250 (i - 6250) = i from Nat.add_sub_cancel' (by omega)] at h
    exact h
  · have h := (allBelow_iff _ _).1 gaps_6450 (i - 6450) (by omega)
    rw [show Nat.add 6450 (i - 6450) = i from Nat.add_sub_cancel' (by omega)] at h
    exact h

end Verif.Sprp
