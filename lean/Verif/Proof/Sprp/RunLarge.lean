import Verif.Proof.Sprp.Data
import Verif.Proof.Sprp.Sound
/-! No composite with a prime factor above 65536 passes. -/
namespace Verif.Sprp

theorem larges_0 : larges bigP 0 200 = true := by decide +kernel
theorem larges_200 : larges bigP 200 200 = true := by decide +kernel
theorem larges_400 : larges bigP 400 200 = true := by decide +kernel
theorem larges_600 : larges bigP 600 200 = true := by decide +kernel
theorem larges_800 : larges bigP 800 200 = true := by decide +kernel
theorem larges_1000 : larges bigP 1000 200 = true := by decide +kernel
theorem larges_1200 : larges bigP 1200 200 = true := by decide +kernel
theorem larges_1400 : larges bigP 1400 200 = true := by decide +kernel
theorem larges_1600 : larges bigP 1600 200 = true := by decide +kernel
theorem larges_1800 : larges bigP 1800 200 = true := by decide +kernel
theorem larges_2000 : larges bigP 2000 200 = true := by decide +kernel
theorem larges_2200 : larges bigP 2200 200 = true := by decide +kernel
theorem larges_2400 : larges bigP 2400 200 = true := by decide +kernel
theorem larges_2600 : larges bigP 2600 200 = true := by decide +kernel
theorem larges_2800 : larges bigP 2800 200 = true := by decide +kernel
theorem larges_3000 : larges bigP 3000 200 = true := by decide +kernel
theorem larges_3200 : larges bigP 3200 200 = true := by decide +kernel
theorem larges_3400 : larges bigP 3400 200 = true := by decide +kernel
theorem larges_3600 : larges bigP 3600 200 = true := by decide +kernel
theorem larges_3800 : larges bigP 3800 200 = true := by decide +kernel
theorem larges_4000 : larges bigP 4000 200 = true := by decide +kernel
theorem larges_4200 : larges bigP 4200 200 = true := by decide +kernel
theorem larges_4400 : larges bigP 4400 200 = true := by decide +kernel
theorem larges_4600 : larges bigP 4600 200 = true := by decide +kernel
theorem larges_4800 : larges bigP 4800 200 = true := by decide +kernel
theorem larges_5000 : larges bigP 5000 200 = true := by decide +kernel
theorem larges_5200 : larges bigP 5200 200 = true := by decide +kernel
theorem larges_5400 : larges bigP 5400 200 = true := by decide +kernel
theorem larges_5600 : larges bigP 5600 200 = true := by decide +kernel
theorem larges_5800 : larges bigP 5800 200 = true := by decide +kernel
theorem larges_6000 : larges bigP 6000 200 = true := by decide +kernel
theorem larges_6200 : larges bigP 6200 200 = true := by decide +kernel
theorem larges_6400 : larges bigP 6400 200 = true := by decide +kernel
theorem larges_6600 : larges bigP 6600 200 = true := by decide +kernel
theorem larges_6800 : larges bigP 6800 200 = true := by decide +kernel
theorem larges_7000 : larges bigP 7000 200 = true := by decide +kernel
theorem larges_7200 : larges bigP 7200 200 = true := by decide +kernel
theorem larges_7400 : larges bigP 7400 200 = true := by decide +kernel
theorem larges_7600 : larges bigP 7600 200 = true := by decide +kernel
theorem larges_7800 : larges bigP 7800 200 = true := by decide +kernel
theorem larges_8000 : larges bigP 8000 200 = true := by decide +kernel
theorem larges_8200 : larges bigP 8200 200 = true := by decide +kernel
theorem larges_8400 : larges bigP 8400 200 = true := by decide +kernel
theorem larges_8600 : larges bigP 8600 200 = true := by decide +kernel
theorem larges_8800 : larges bigP 8800 200 = true := by decide +kernel
theorem larges_9000 : larges bigP 9000 200 = true := by decide +kernel
theorem larges_9200 : larges bigP 9200 200 = true := by decide +kernel
theorem larges_9400 : larges bigP 9400 200 = true := by decide +kernel
theorem larges_9600 : larges bigP 9600 200 = true := by decide +kernel
theorem larges_9800 : larges bigP 9800 200 = true := by decide +kernel
theorem larges_10000 : larges bigP 10000 200 = true := by decide +kernel
theorem larges_10200 : larges bigP 10200 200 = true := by decide +kernel
theorem larges_10400 : larges bigP 10400 200 = true := by decide +kernel
theorem larges_10600 : larges bigP 10600 200 = true := by decide +kernel
theorem larges_10800 : larges bigP 10800 200 = true := by decide +kernel
theorem larges_11000 : larges bigP 11000 200 = true := by decide +kernel
theorem larges_11200 : larges bigP 11200 200 = true := by decide +kernel
theorem larges_11400 : larges bigP 11400 200 = true := by decide +kernel
theorem larges_11600 : larges bigP 11600 200 = true := by decide +kernel
theorem larges_11800 : larges bigP 11800 200 = true := by decide +kernel
theorem larges_12000 : larges bigP 12000 200 = true := by decide +kernel
theorem larges_12200 : larges bigP 12200 200 = true := by decide +kernel
theorem larges_12400 : larges bigP 12400 200 = true := by decide +kernel
theorem larges_12600 : larges bigP 12600 200 = true := by decide +kernel
theorem larges_12800 : larges bigP 12800 200 = true := by decide +kernel
theorem larges_13000 : larges bigP 13000 200 = true := by decide +kernel
theorem larges_13200 : larges bigP 13200 200 = true := by decide +kernel
theorem larges_13400 : larges bigP 13400 200 = true := by decide +kernel
theorem larges_13600 : larges bigP 13600 200 = true := by decide +kernel
theorem larges_13800 : larges bigP 13800 200 = true := by decide +kernel
theorem larges_14000 : larges bigP 14000 200 = true := by decide +kernel
theorem larges_14200 : larges bigP 14200 200 = true := by decide +kernel
theorem larges_14400 : larges bigP 14400 200 = true := by decide +kernel
theorem larges_14600 : larges bigP 14600 200 = true := by decide +kernel
theorem larges_14800 : larges bigP 14800 200 = true := by decide +kernel
theorem larges_15000 : larges bigP 15000 200 = true := by decide +kernel
theorem larges_15200 : larges bigP 15200 200 = true := by decide +kernel
theorem larges_15400 : larges bigP 15400 200 = true := by decide +kernel
theorem larges_15600 : larges bigP 15600 200 = true := by decide +kernel
theorem larges_15800 : larges bigP 15800 200 = true := by decide +kernel
theorem larges_16000 : larges bigP 16000 200 = true := by decide +kernel
theorem larges_16200 : larges bigP 16200 183 = true := by decide +kernel

theorem large_all : ∀ i < 16383, (pos% (Nat.mul 2 (Nat.succ i)) as k => large bigP (Nat.succ k)) = true := by
  intro i hi
  by_cases h200 : i < 200
  · have h := (allBelow_iff _ _).1 larges_0 (i - 0) (by omega)
    rw [show Nat.add 0 (i - 0) = i from Nat.add_sub_cancel' (by omega)] at h
    exact h
  by_cases h400 : i < 400
  · have h := (allBelow_iff _ _).1 larges_200 (i - 200) (by omega)
    rw [show Nat.add 200 (i - 200) = i from Nat.add_sub_cancel' (by omega)] at h
    exact h
  by_cases h600 : i < 600
  · have h := (allBelow_iff _ _).1 larges_400 (i - 400) (by omega)
    rw [show Nat.add 400 (i - 400) = i from Nat.add_sub_cancel' (by omega)] at h
    exact h
  by_cases h800 : i < 800
  · have h := (allBelow_iff _ _).1 larges_600 (i - 600) (by omega)
    rw [show Nat.add 600 (i - 600) = i from Nat.add_sub_cancel' (by omega)] at h
    exact h
  by_cases h1000 : i < 1000
  · have h := (allBelow_iff _ _).1 larges_800 (i - 800) (by omega)
    rw [show Nat.add 800 (i - 800) = i from Nat.add_sub_cancel' (by omega)] at h
    exact h
  by_cases h1200 : i < 1200
  · have h := (allBelow_iff _ _).1 larges_1000 (i - 1000) (by omega)
    rw [show Nat.add 1000 (i - 1000) = i from Nat.add_sub_cancel' (by omega)] at h
    exact h
  by_cases h1400 : i < 1400
  · have h := (allBelow_iff _ _).1 larges_1200 (i - 1200) (by omega)
    rw [show Nat.add 1200 (i - 1200) = i from Nat.add_sub_cancel' (by omega)] at h
    exact h
  by_cases h1600 : i < 1600
  · have h := (allBelow_iff _ _).1 larges_1400 (i - 1400) (by omega)
    rw [show Nat.add 1400 (i - 1400) = i from Nat.add_sub_cancel' (by omega)] at h
    exact h
  by_cases h1800 : i < 1800
  · have h := (allBelow_iff _ _).1 larges_1600 (i - 1600) (by omega)
    rw [show Nat.add 1600 (i - 1600) = i from Nat.add_sub_cancel' (by omega)] at h
    exact h
  by_cases h2000 : i < 2000
  · have h := (allBelow_iff _ _).1 larges_1800 (i - 1800) (by omega)
    rw [show Nat.add 1800 (i - 1800) = i from Nat.add_sub_cancel' (by omega)] at h
    exact h
  by_cases h2200 : i < 2200
  · have h := (allBelow_iff _ _).1 larges_2000 (i - 2000) (by omega)
    rw [show Nat.add 2000 (i - 2000) = i from Nat.add_sub_cancel' (by omega)] at h
    exact h
  by_cases h2400 : i < 2400
  · have h := (allBelow_iff _ _).1 larges_2200 (i - 2200) (by omega)
    rw [show Nat.add 2200 (i - 2200) = i from Nat.add_sub_cancel' (by omega)] at h
    exact h
  by_cases h2600 : i < 2600
  · have h := (allBelow_iff _ _).1 larges_2400 (i - 2400) (by omega)
    rw [show Nat.add 2400 (i - 2400) = i from Nat.add_sub_cancel' (by omega)] at h
    exact h
  by_cases h2800 : i < 2800
  · have h := (allBelow_iff _ _).1 larges_2600 (i - 2600) (by omega)
    rw [show Nat.add 2600 (i - 2600) = i from Nat.add_sub_cancel' (by omega)] at h
    exact h
  by_cases h3000 : i < 3000
  · have h := (allBelow_iff _ _).1 larges_2800 (i - 2800) (by omega)
    rw [show Nat.add 2800 (i - 2800) = i from Nat.add_sub_cancel' (by omega)] at h
    exact h
  by_cases h3200 : i < 3200
  · have h := (allBelow_iff _ _).1 larges_3000 (i - 3000) (by omega)
    rw [show Nat.add 3000 (i - 3000) = i from Nat.add_sub_cancel' (by omega)] at h
    exact h
  by_cases h3400 : i < 3400
  · have h := (allBelow_iff _ _).1 larges_3200 (i - 3200) (by omega)
    rw [show Nat.add 3200 (i - 3200) = i from Nat.add_sub_cancel' (by omega)] at h
    exact h
  by_cases h3600 : i < 3600
  · have h := (allBelow_iff _ _).1 larges_3400 (i - 3400) (by omega)
    rw [show Nat.add 3400 (i - 3400) = i from Nat.add_sub_cancel' (by omega)] at h
    exact h
  by_cases h3800 : i < 3800
  · have h := (allBelow_iff _ _).1 larges_3600 (i - 3600) (by omega)
    rw [show Nat.add 3600 (i - 3600) = i from Nat.add_sub_cancel' (by omega)] at h
    exact h
  by_cases h4000 : i < 4000
  · have h := (allBelow_iff _ _).1 larges_3800 (i - 3800) (by omega)
    rw [show Nat.add 3800 (i - 3800) = i from Nat.add_sub_cancel' (by omega)] at h
    exact h
  by_cases h4200 : i < 4200
  · have h := (allBelow_iff _ _).1 larges_4000 (i - 4000) (by omega)
    rw [show Nat.add 4000 (i - 4000) = i from Nat.add_sub_cancel' (by omega)] at h
    exact h
  by_cases h4400 : i < 4400
  · have h := (allBelow_iff _ _).1 larges_4200 (i - 4200) (by omega)
    rw [show Nat.add 4200 (i - 4200) = i from Nat.add_sub_cancel' (by omega)] at h
    exact h
  by_cases h4600 : i < 4600
  · have h := (allBelow_iff _ _).1 larges_4400 (i - 4400) (by omega)
    rw [show Nat.add 4400 (i - 4400) = i from Nat.add_sub_cancel' (by omega)] at h
    exact h
  by_cases h4800 : i < 4800
  · have h := (allBelow_iff _ _).1 larges_4600 (i - 4600) (by omega)
    rw [show Nat.add 4600 (i - 4600) = i from Nat.add_sub_cancel' (by omega)] at h
    exact h
  by_cases h5000 : i < 5000
  · have h := (allBelow_iff _ _).1 larges_4800 (i - 4800) (by omega)
    rw [show Nat.add 4800 (i - 4800) = i from Nat.add_sub_cancel' (by omega)] at h
    exact h
  by_cases h5200 : i < 5200
  · have h := (allBelow_iff _ _).1 larges_5000 (i - 5000) (by omega)
    rw [show Nat.add 5000 (i - 5000) = i from Nat.add_sub_cancel' (by omega)] at h
    exact h
  by_cases h5400 : i < 5400
  · have h := (allBelow_iff _ _).1 larges_5200 (i - 5200) (by omega)
    rw [show Nat.add 5200 (i - 5200) = i from Nat.add_sub_cancel' (by omega)] at h
    exact h
  by_cases h5600 : i < 5600
  · have h := (allBelow_iff _ _).1 larges_5400 (i - 5400) (by omega)
    rw [show Nat.add 5400 (i - 5400) = i from Nat.add_sub_cancel' (by omega)] at h
    exact h
  by_cases h5800 : i < 5800
  · have h := (allBelow_iff _ _).1 larges_5600 (i - 5600) (by omega)
    rw [show Nat.add 5600 (i - 5600) = i from Nat.add_sub_cancel' (by omega)] at h
    exact h
  by_cases h6000 : i < 6000
  · have h := (allBelow_iff _ _).1 larges_5800 (i - 5800) (by omega)
    rw [show Nat.add 5800 (i - 5800) = i from Nat.add_sub_cancel' (by omega)] at h
    exact h
  by_cases h6200 : i < 6200
  · have h := (allBelow_iff _ _).1 larges_6000 (i - 6000) (by omega)
    rw [show Nat.add 6000 (i - 6000) = i from Nat.add_sub_cancel' (by omega)] at h
    exact h
  by_cases h6400 : i < 6400
  · have h := (allBelow_iff _ _).1 larges_6200 (i - 6200) (by omega)
    rw [show Nat.add 6200 (i - 6200) = i from Nat.add_sub_cancel' (by omega)] at h
    exact h
  by_cases h6600 : i < 6600
  · have h := (allBelow_iff _ _).1 larges_6400 (i - 6400) (by omega)
    rw [show Nat.add 6400 (i - 6400) = i from Nat.add_sub_cancel' (by omega)] at h
    exact h
  by_cases h6800 : i < 6800
  · have h := (allBelow_iff _ _).1 larges_6600 (i - 6600) (by omega)
    rw [show Nat.add 6600 (i - 6600) = i from Nat.add_sub_cancel' (by omega)] at h
    exact h
  by_cases h7000 : i < 7000
  · have h := (allBelow_iff _ _).1 larges_6800 (i - 6800) (by omega)
    rw [show Nat.add 6800 (i - 6800) = i from Nat.add_sub_cancel' (by omega)] at h
    exact h
  by_cases h7200 : i < 7200
  · have h := (allBelow_iff _ _).1 larges_7000 (i - 7000) (by omega)
    rw [show Nat.add 7000 (i - 7000) = i from Nat.add_sub_cancel' (by omega)] at h
    exact h
  by_cases h7400 : i < 7400
  · have h := (allBelow_iff _ _).1 larges_7200 (i - 7200) (by omega)
    rw [show Nat.add 7200 (i - 7200) = i from Nat.add_sub_cancel' (by omega)] at h
    exact h
  by_cases h7600 : i < 7600
  · have h := (allBelow_iff _ _).1 larges_7400 (i - 7400) (by omega)
    rw [show Nat.add 7400 (i - 7400) = i from Nat.add_sub_cancel' (by omega)] at h
    exact h
  by_cases h7800 : i < 7800
  · have h := (allBelow_iff _ _).1 larges_7600 (i - 7600) (by omega)
    rw [show Nat.add 7600 (i - 7600) = i from Nat.add_sub_cancel' (by omega)] at h
    exact h
  by_cases h8000 : i < 8000
  · have h := (allBelow_iff _ _).1 larges_7800 (i - 7800) (by omega)
    rw [show Nat.add 7800 (i - 7800) = i from Nat.add_sub_cancel' (by omega)] at h
    exact h
  by_cases h8200 : i < 8200
  · have h := (allBelow_iff _ _).1 larges_8000 (i - 8000) (by omega)
    rw [show Nat.add 8000 (i - 8000) = i from Nat.add_sub_cancel' (by omega)] at h
    exact h
  by_cases h8400 : i < 8400
  · have h := (allBelow_iff _ _).1 larges_8200 (i - 8200) (by omega)
    rw [show Nat.add 8200 (i - 8200) = i from Nat.add_sub_cancel' (by omega)] at h
    exact h
  by_cases h8600 : i < 8600
  · have h := (allBelow_iff _ _).1 larges_8400 (i - 8400) (by omega)
    rw [show Nat.add 8400 (i - 8400) = i from Nat.add_sub_cancel' (by omega)] at h
    exact h
  by_cases h8800 : i < 8800
  · have h := (allBelow_iff _ _).1 larges_8600 (i - 8600) (by omega)
    rw [show Nat.add 8600 (i - 8600) = i from Nat.add_sub_cancel' (by omega)] at h
    exact h
  by_cases h9000 : i < 9000
  · have h := (allBelow_iff _ _).1 larges_8800 (i - 8800) (by omega)
    rw [show Nat.add 8800 (i - 8800) = i from Nat.add_sub_cancel' (by omega)] at h
    exact h
  by_cases h9200 : i < 9200
  · have h := (allBelow_iff _ _).1 larges_9000 (i - 9000) (by omega)
    rw [show Nat.add 9000 (i - 9000) = i from Nat.add_sub_cancel' (by omega)] at h
    exact h
  by_cases h9400 : i < 9400
  · have h := (allBelow_iff _ _).1 larges_9200 (i - 9200) (by omega)
    rw [show Nat.add 9200 (i - 9200) = i from Nat.add_sub_cancel' (by omega)] at h
    exact h
  by_cases h9600 : i < 9600
  · have h := (allBelow_iff _ _).1 larges_9400 (i - 9400) (by omega)
    rw [show Nat.add 9400 (i - 9400) = i from Nat.add_sub_cancel' (by omega)] at h
    exact h
  by_cases h9800 : i < 9800
  · have h := (allBelow_iff _ _).1 larges_9600 (i - 9600) (by omega)
    rw [show Nat.add 9600 (i - 9600) = i from Nat.add_sub_cancel' (by omega)] at h
    exact h
  by_cases h10000 : i < 10000
  · have h := (allBelow_iff _ _).1 larges_9800 (i - 9800) (by omega)
    rw [show Nat.add 9800 (i - 9800) = i from Nat.add_sub_cancel' (by omega)] at h
    exact h
  by_cases h10200 : i < 10200
  · have h := (allBelow_iff _ _).1 larges_10000 (i - 10000) (by omega)
    rw [show Nat.add 10000 (i - 10000) = i from Nat.add_sub_cancel' (by omega)] at h
    exact h
  by_cases h10400 : i < 10400
  · have h := (allBelow_iff _ _).1 larges_10200 (i - 10200) (by omega)
    rw [show Nat.add 10200 (i - 10200) = i from Nat.add_sub_cancel' (by omega)] at h
    exact h
  by_cases h10600 : i < 10600
  · have h := (allBelow_iff _ _).1 larges_10400 (i - 10400) (by omega)
    rw [show Nat.add 10400 (i - 10400) = i from Nat.add_sub_cancel' (by omega)] at h
    exact h
  by_cases h10800 : i < 10800
  · have h := (allBelow_iff _ _).1 larges_10600 (i - 10600) (by omega)
    rw [show Nat.add 10600 (i - 10600) = i from Nat.add_sub_cancel' (by omega)] at h
    exact h
  by_cases h11000 : i < 11000
  · have h := (allBelow_iff _ _).1 larges_10800 (i - 10800) (by omega)
    rw [show Nat.add 10800 (i - 10800) = i from Nat.add_sub_cancel' (by omega)] at h
    exact h
  by_cases h11200 : i < 11200
  · have h := (allBelow_iff _ _).1 larges_11000 (i - 11000) (by omega)
    rw [show Nat.add 11000 (i - 11000) = i from Nat.add_sub_cancel' (by omega)] at h
    exact h
  by_cases h11400 : i < 11400
  · have h := (allBelow_iff _ _).1 larges_11200 (i - 11200) (by omega)
    rw [show Nat.add 11200 (i - 11200) = i from Nat.add_sub_cancel' (by omega)] at h
    exact h
  by_cases h11600 : i < 11600
  · have h := (allBelow_iff _ _).1 larges_11400 (i - 11400) (by omega)
    rw [show Nat.add 11400 (i - 11400) = i from Nat.add_sub_cancel' (by omega)] at h
    exact h
  by_cases h11800 : i < 11800
  · have h := (allBelow_iff _ _).1 larges_11600 (i - 11600) (by omega)
    rw [show Nat.add 11600 (i - 11600) = i from Nat.add_sub_cancel' (by omega)] at h
    exact h
  by_cases h12000 : i < 12000
  · have h := (allBelow_iff _ _).1 larges_11800 (i - 11800) (by omega)
    rw [show Nat.add 11800 (i - 11800) = i from Nat.add_sub_cancel' (by omega)] at h
    exact h
  by_cases h12200 : i < 12200
  · have h := (allBelow_iff _ _).1 larges_12000 (i - 12000) (by omega)
    rw [show Nat.add 12000 (i - 12000) = i from Nat.add_sub_cancel' (by omega)] at h
    exact h
  by_cases h12400 : i < 12400
  · have h := (allBelow_iff _ _).1 larges_12200 (i - 12200) (by omega)
    rw [show Nat.add 12200 (i - 12200) = i from Nat.add_sub_cancel' (by omega)] at h
    exact h
  by_cases h12600 : i < 12600
  · have h := (allBelow_iff _ _).1 larges_12400 (i - 12400) (by omega)
    rw [show Nat.add 12400 (i - 12400) = i from Nat.add_sub_cancel' (by omega)] at h
    exact h
  by_cases h12800 : i < 12800
  · have h := (allBelow_iff _ _).1 larges_12600 (i - 12600) (by omega)
    rw [show Nat.add 12600 (i - 12600) = i from Nat.add_sub_cancel' (by omega)] at h
    exact h
  by_cases h13000 : i < 13000
  · have h := (allBelow_iff _ _).1 larges_12800 (i - 12800) (by omega)
    rw [show Nat.add 12800 (i - 12800) = i from Nat.add_sub_cancel' (by omega)] at h
    exact h
  by_cases h13200 : i < 13200
  · have h := (allBelow_iff _ _).1 larges_13000 (i - 13000) (by omega)
    rw [show Nat.add 13000 (i - 13000) = i from Nat.add_sub_cancel' (by omega)] at h
    exact h
  by_cases h13400 : i < 13400
  · have h := (allBelow_iff _ _).1 larges_13200 (i - 13200) (by omega)
    rw [show Nat.add 13200 (i - 13200) = i from Nat.add_sub_cancel' (by omega)] at h
    exact h
  by_cases h13600 : i < 13600
  · have h := (allBelow_iff _ _).1 larges_13400 (i - 13400) (by omega)
    rw [show Nat.add 13400 (i - 13400) = i from Nat.add_sub_cancel' (by omega)] at h
    exact h
  by_cases h13800 : i < 13800
  · have h := (allBelow_iff _ _).1 larges_13600 (i - 13600) (by omega)
    rw [show Nat.add 13600 (i - 13600) = i from Nat.add_sub_cancel' (by omega)] at h
    exact h
  by_cases h14000 : i < 14000
  · have h := (allBelow_iff _ _).1 larges_13800 (i - 13800) (by omega)
    rw [show Nat.add 13800 (i - 13800) = i from Nat.add_sub_cancel' (by omega)] at h
    exact h
  by_cases h14200 : i < 14200
  · have h := (allBelow_iff _ _).1 larges_14000 (i - 14000) (by omega)
    rw [show Nat.add 14000 (i - 14000) = i from Nat.add_sub_cancel' (by omega)] at h
    exact h
  by_cases h14400 : i < 14400
  · have h := (allBelow_iff _ _).1 larges_14200 (i - 14200) (by omega)
    rw [show Nat.add 14200 (i - 14200) = i from Nat.add_sub_cancel' (by omega)] at h
    exact h
  by_cases h14600 : i < 14600
  · have h := (allBelow_iff _ _).1 larges_14400 (i - 14400) (by omega)
    rw [show Nat.add 14400 (i - 14400) = i from Nat.add_sub_cancel' (by omega)] at h
    exact h
  by_cases h14800 : i < 14800
  · have h := (allBelow_iff _ _).1 larges_14600 (i - 14600) (by omega)
    rw [show Nat.add 14600 (i - 14600) = i from Nat.add_sub_cancel' (by omega)] at h
    exact h
  by_cases h15000 : i < 15000
  · have h := (allBelow_iff _ _).1 larges_14800 (i - 14800) (by omega)
    rw [show Nat.add 14800 (i - 14800) = i from Nat.add_sub_cancel' (by omega)] at h
    exact h
  by_cases h15200 : i < 15200
  · have h := (allBelow_iff _ _).1 larges_15000 (i - 15000) (by omega)
    rw [show Nat.add 15000 (i - 15000) = i from Nat.add_sub_cancel' (by omega)] at h
    exact h
  by_cases h15400 : i < 15400
  · have h := (allBelow_iff _ _).1 larges_15200 (i - 15200) (by omega)
    rw [show Nat.add 15200 (i - 15200) = i from Nat.add_sub_cancel' (by omega)] at h
    exact h
  by_cases h15600 : i < 15600
  · have h := (allBelow_iff _ _).1 larges_15400 (i - 15400) (by omega)
    rw [show Nat.add 15400 (i - 15400) = i from Nat.add_sub_cancel' (by omega)] at h
    exact h
  by_cases h15800 : i < 15800
  · have h := (allBelow_iff _ _).1 larges_15600 (i - 15600) (by omega)
    rw [show Nat.add 15600 (i - 15600) = i from Nat.add_sub_cancel' (by omega)] at h
    exact h
  by_cases h16000 : i < 16000
  · have h := (allBelow_iff _ _).1 larges_15800 (i - 15800) (by omega)
    rw [show Nat.add 15800 (i - 15800) = i from Nat.add_sub_cancel' (by omega)] at h
    exact h
  by_cases h16200 : i < 16200
  · have h := (allBelow_iff _ _).1 larges_16000 (i - 16000) (by omega)
    rw [show Nat.add 16000 (i - 16000) = i from Nat.add_sub_cancel' (by omega)] at h
    exact h
  · have h := (allBelow_iff _ _).1 larges_16200 (i - 16200) (by omega)
    rw [show Nat.add 16200 (i - 16200) = i from Nat.add_sub_cancel' (by omega)] at h
    exact h

end Verif.Sprp
