import Verif.Proof.Sprp.Data
import Verif.Proof.Sprp.Sound
/-! The primes of the table divide `bigP`. -/
namespace Verif.Sprp

theorem divs_0 : divs tab bigP 0 200 = true := by decide +kernel
theorem divs_200 : divs tab bigP 200 200 = true := by decide +kernel
theorem divs_400 : divs tab bigP 400 200 = true := by decide +kernel
theorem divs_600 : divs tab bigP 600 200 = true := by decide +kernel
theorem divs_800 : divs tab bigP 800 200 = true := by decide +kernel
theorem divs_1000 : divs tab bigP 1000 200 = true := by decide +kernel
theorem divs_1200 : divs tab bigP 1200 200 = true := by decide +kernel
theorem divs_1400 : divs tab bigP 1400 200 = true := by decide +kernel
theorem divs_1600 : divs tab bigP 1600 200 = true := by decide +kernel
theorem divs_1800 : divs tab bigP 1800 200 = true := by decide +kernel
theorem divs_2000 : divs tab bigP 2000 200 = true := by decide +kernel
theorem divs_2200 : divs tab bigP 2200 200 = true := by decide +kernel
theorem divs_2400 : divs tab bigP 2400 200 = true := by decide +kernel
theorem divs_2600 : divs tab bigP 2600 200 = true := by decide +kernel
theorem divs_2800 : divs tab bigP 2800 200 = true := by decide +kernel
theorem divs_3000 : divs tab bigP 3000 200 = true := by decide +kernel
theorem divs_3200 : divs tab bigP 3200 200 = true := by decide +kernel
theorem divs_3400 : divs tab bigP 3400 200 = true := by decide +kernel
theorem divs_3600 : divs tab bigP 3600 200 = true := by decide +kernel
theorem divs_3800 : divs tab bigP 3800 200 = true := by decide +kernel
theorem divs_4000 : divs tab bigP 4000 200 = true := by decide +kernel
theorem divs_4200 : divs tab bigP 4200 200 = true := by decide +kernel
theorem divs_4400 : divs tab bigP 4400 200 = true := by decide +kernel
theorem divs_4600 : divs tab bigP 4600 200 = true := by decide +kernel
theorem divs_4800 : divs tab bigP 4800 200 = true := by decide +kernel
theorem divs_5000 : divs tab bigP 5000 200 = true := by decide +kernel
theorem divs_5200 : divs tab bigP 5200 200 = true := by decide +kernel
theorem divs_5400 : divs tab bigP 5400 200 = true := by decide +kernel
theorem divs_5600 : divs tab bigP 5600 200 = true := by decide +kernel
theorem divs_5800 : divs tab bigP 5800 200 = true := by decide +kernel
theorem divs_6000 : divs tab bigP 6000 200 = true := by decide +kernel
theorem divs_6200 : divs tab bigP 6200 200 = true := by decide +kernel
theorem divs_6400 : divs tab bigP 6400 139 = true := by decide +kernel

theorem div_all : ∀ i < 6539, bigP % tp tab i = 0 := by
  intro i hi
  by_cases h200 : i < 200
  · have h := (allBelow_iff _ _).1 divs_0 (i - 0) (by omega)
    rw [show Nat.add 0 (i - 0) = i from Nat.add_sub_cancel' (by omega)] at h
    exact beq_of h
  by_cases h400 : i < 400
  · have h := (allBelow_iff _ _).1 divs_200 (i - 200) (by omega)
    rw [show Nat.add 200 (i - 200) = i from Nat.add_sub_cancel' (by omega)] at h
    exact beq_of h
  by_cases h600 : i < 600
  · have h := (allBelow_iff _ _).1 divs_400 (i - 400) (by omega)
    rw [show Nat.add 400 (i - 400) = i from Nat.add_sub_cancel' (by omega)] at h
    exact beq_of h
  by_cases h800 : i < 800
  · have h := (allBelow_iff _ _).1 divs_600 (i - 600) (by omega)
    rw [show Nat.add 600 (i - 600) = i from Nat.add_sub_cancel' (by omega)] at h
    exact beq_of h
  by_cases h1000 : i < 1000
  · have h := (allBelow_iff _ _).1 divs_800 (i - 800) (by omega)
    rw [show Nat.add 800 (i - 800) = i from Nat.add_sub_cancel' (by omega)] at h
    exact beq_of h
  by_cases h1200 : i < 1200
  · have h := (allBelow_iff _ _).1 divs_1000 (i - 1000) (by omega)
    rw [show Nat.add 1000 (i - 1000) = i from Nat.add_sub_cancel' (by omega)] at h
    exact beq_of h
  by_cases h1400 : i < 1400
  · have h := (allBelow_iff _ _).1 divs_1200 (i - 1200) (by omega)
    rw [show Nat.add 1200 (i - 1200) = i from Nat.add_sub_cancel' (by omega)] at h
    exact beq_of h
  by_cases h1600 : i < 1600
  · have h := (allBelow_iff _ _).1 divs_1400 (i - 1400) (by omega)
    rw [show Nat.add 1400 (i - 1400) = i from Nat.add_sub_cancel' (by omega)] at h
    exact beq_of h
  by_cases h1800 : i < 1800
  · have h := (allBelow_iff _ _).1 divs_1600 (i - 1600) (by omega)
    rw [show Nat.add 1600 (i - 1600) = i from Nat.add_sub_cancel' (by omega)] at h
    exact beq_of h
  by_cases h2000 : i < 2000
  · have h := (allBelow_iff _ _).1 divs_1800 (i - 1800) (by omega)
    rw [show Nat.add 1800 (i - 1800) = i from Nat.add_sub_cancel' (by omega)] at h
    exact beq_of h
  by_cases h2200 : i < 2200
  · have h := (allBelow_iff _ _).1 divs_2000 (i - 2000) (by omega)
    rw [show Nat.add 2000 (i - 2000) = i from Nat.add_sub_cancel' (by omega)] at h
    exact beq_of h
  by_cases h2400 : i < 2400
  · have h := (allBelow_iff _ _).1 divs_2200 (i - 2200) (by omega)
    rw [show Nat.add 2200 (i - 2200) = i from Nat.add_sub_cancel' (by omega)] at h
    exact beq_of h
  by_cases h2600 : i < 2600
  · have h := (allBelow_iff _ _).1 divs_2400 (i - 2400) (by omega)
    rw [show Nat.add 2400 (i - 2400) = i from Nat.add_sub_cancel' (by omega)] at h
    exact beq_of h
  by_cases h2800 : i < 2800
  · have h := (allBelow_iff _ _).1 divs_2600 (i - 2600) (by omega)
    rw [show Nat.add 2600 (i - 2600) = i from Nat.add_sub_cancel' (by omega)] at h
    exact beq_of h
  by_cases h3000 : i < 3000
  · have h := (allBelow_iff _ _).1 divs_2800 (i - 2800) (by omega)
    rw [show Nat.add 2800 (i - 2800) = i from Nat.add_sub_cancel' (by omega)] at h
    exact beq_of h
  by_cases h3200 : i < 3200
  · have h := (allBelow_iff _ _).1 divs_3000 (i - 3000) (by omega)
    rw [show Nat.add 3000 (i - 3000) = i from Nat.add_sub_cancel' (by omega)] at h
    exact beq_of h
  by_cases h3400 : i < 3400
  · have h := (allBelow_iff _ _).1 divs_3200 (i - 3200) (by omega)
    rw [show Nat.add 3200 (i - 3200) = i from Nat.add_sub_cancel' (by omega)] at h
    exact beq_of h
  by_cases h3600 : i < 3600
  · have h := (allBelow_iff _ _).1 divs_3400 (i - 3400) (by omega)
    rw [show Nat.add 3400 (i - 3400) = i from Nat.add_sub_cancel' (by omega)] at h
    exact beq_of h
  by_cases h3800 : i < 3800
  · have h := (allBelow_iff _ _).1 divs_3600 (i - 3600) (by omega)
    rw [show Nat.add 3600 (i - 3600) = i from Nat.add_sub_cancel' (by omega)] at h
    exact beq_of h
  by_cases h4000 : i < 4000
  · have h := (allBelow_iff _ _).1 divs_3800 (i - 3800) (by omega)
    rw [show Nat.add 3800 (i - 3800) = i from Nat.add_sub_cancel' (by omega)] at h
    exact beq_of h
  by_cases h4200 : i < 4200
  · have h := (allBelow_iff _ _).1 divs_4000 (i - 4000) (by omega)
    rw [show Nat.add 4000 (i - 4000) = i from Nat.add_sub_cancel' (by omega)] at h
    exact beq_of h
  by_cases h4400 : i < 4400
  · have h := (allBelow_iff _ _).1 divs_4200 (i - 4200) (by omega)
    rw [show Nat.add 4200 (i - 4200) = i from Nat.add_sub_cancel' (by omega)] at h
    exact beq_of h
  by_cases h4600 : i < 4600
  · have h := (allBelow_iff _ _).1 divs_4400 (i - 4400) (by omega)
    rw [show Nat.add 4400 (i - 4400) = i from Nat.add_sub_cancel' (by omega)] at h
    exact beq_of h
  by_cases h4800 : i < 4800
  · have h := (allBelow_iff _ _).1 divs_4600 (i - 4600) (by omega)
    rw [show Nat.add 4600 (i - 4600) = i from Nat.add_sub_cancel' (by omega)] at h
    exact beq_of h
  by_cases h5000 : i < 5000
  · have h := (allBelow_iff _ _).1 divs_4800 (i - 4800) (by omega)
    rw [show Nat.add 4800 (i - 4800) = i from Nat.add_sub_cancel' (by omega)] at h
    exact beq_of h
  by_cases h5200 : i < 5200
  · have h := (allBelow_iff _ _).1 divs_5000 (i - 5000) (by omega)
    rw [show Nat.add 5000 (i - 5000) = i from Nat.add_sub_cancel' (by omega)] at h
    exact beq_of h
  by_cases h5400 : i < 5400
  · have h := (allBelow_iff _ _).1 divs_5200 (i - 5200) (by omega)
    rw [show Nat.add 5200 (i - 5200) = i from Nat.add_sub_cancel' (by omega)] at h
    exact beq_of h
  by_cases h5600 : i < 5600
  · have h := (allBelow_iff _ _).1 divs_5400 (i - 5400) (by omega)
    rw [show Nat.add 5400 (i - 5400) = i from Nat.add_sub_cancel' (by omega)] at h
    exact beq_of h
  by_cases h5800 : i < 5800
  · have h := (allBelow_iff _ _).1 divs_5600 (i - 5600) (by omega)
    rw [show Nat.add 5600 (i - 5600) = i from Nat.add_sub_cancel' (by omega)] at h
    exact beq_of h
  by_cases h6000 : i < 6000
  · have h := (allBelow_iff _ _).1 divs_5800 (i - 5800) (by omega)
    rw [show Nat.add 5800 (i - 5800) = i from Nat.add_sub_cancel' (by omega)] at h
    exact beq_of h
  by_cases h6200 : i < 6200
  · have h := (allBelow_iff _ _).1 divs_6000 (i - 6000) (by omega)
    rw [show Nat.add 6000 (i - 6000) = i from Nat.add_sub_cancel' (by omega)] at h
    exact beq_of h
  by_cases h6400 : i < 6400
  · have h := (allBelow_iff _ _).1 divs_6200 (i - 6200) (by omega)
    rw [show Nat.add 6200 (i - 6200) = i from Nat.add_sub_cancel' (by omega)] at h
    exact beq_of h
  · have h := (allBelow_iff _ _).1 divs_6400 (i - 6400) (by omega)
    rw [show Nat.add 6400 (i - 6400) = i from Nat.add_sub_cancel' (by omega)] at h
    exact beq_of h

end Verif.Sprp
