import Verif.Crc.Radix

/-!
# Checksums: the computations, run by the kernel

One after the other, to bound the memory.
-/
set_option Elab.async false

namespace Gel.Crc

theorem seq_step : Nat.beq (Nat.mod (Nat.xor (Nat.shiftRight seq 32) (comb seq 1 0)) (2 ^ 91639)) 0 = true := by decide +kernel

theorem seq_start : Nat.beq (Nat.mod seq (2 ^ 32)) (2 ^ 31) = true := by decide +kernel

theorem cell3_0 : tri seq 28 (cell3 false false false) = true := by decide +kernel
theorem cell3_1 : tri seq 28 (cell3 false false true) = true := by decide +kernel
theorem cell3_2 : tri seq 28 (cell3 false true false) = true := by decide +kernel
theorem cell3_3 : tri seq 28 (cell3 false true true) = true := by decide +kernel
theorem cell3_4 : tri seq 28 (cell3 true false false) = true := by decide +kernel
theorem cell3_5 : tri seq 28 (cell3 true false true) = true := by decide +kernel
theorem cell3_6 : tri seq 28 (cell3 true true false) = true := by decide +kernel
theorem cell3_7 : tri seq 28 (cell3 true true true) = true := by decide +kernel

theorem cell5_0 : tri (pairs 332 299 1) 29 (cell5 false false) = true := by decide +kernel
theorem cell5_1 : tri (pairs 332 299 1) 29 (cell5 false true) = true := by decide +kernel
theorem cell5_2 : tri (pairs 332 299 1) 29 (cell5 true false) = true := by decide +kernel
theorem cell5_3 : tri (pairs 332 299 1) 29 (cell5 true true) = true := by decide +kernel

theorem free4_0 : free4 1 = true := by decide +kernel
theorem free4_1 : free4 97 = true := by decide +kernel
theorem free4_2 : free4 193 = true := by decide +kernel
theorem free4_3 : free4 289 = true := by decide +kernel
theorem free4_4 : free4 385 = true := by decide +kernel
theorem free4_5 : free4 481 = true := by decide +kernel
theorem free4_6 : free4 577 = true := by decide +kernel
theorem free4_7 : free4 673 = true := by decide +kernel
theorem free4_8 : free4 769 = true := by decide +kernel
theorem free4_9 : free4 865 = true := by decide +kernel
theorem free4_10 : free4 961 = true := by decide +kernel
theorem free4_11 : free4 1057 = true := by decide +kernel
theorem free4_12 : free4 1153 = true := by decide +kernel
theorem free4_13 : free4 1249 = true := by decide +kernel
theorem free4_14 : free4 1345 = true := by decide +kernel
theorem free4_15 : free4 1441 = true := by decide +kernel
theorem free4_16 : free4 1537 = true := by decide +kernel
theorem free4_17 : free4 1633 = true := by decide +kernel
theorem free4_18 : free4 1729 = true := by decide +kernel
theorem free4_19 : free4 1825 = true := by decide +kernel
theorem free4_20 : free4 1921 = true := by decide +kernel
theorem free4_21 : free4 2017 = true := by decide +kernel
theorem free4_22 : free4 2113 = true := by decide +kernel
theorem free4_23 : free4 2209 = true := by decide +kernel
theorem free4_24 : free4 2305 = true := by decide +kernel
theorem free4_25 : free4 2401 = true := by decide +kernel
theorem free4_26 : free4 2497 = true := by decide +kernel
theorem free4_27 : free4 2593 = true := by decide +kernel
theorem free4_28 : free4 2689 = true := by decide +kernel
theorem free4_29 : free4 2785 = true := by decide +kernel
theorem free4_30 : free4 2881 = true := by decide +kernel
theorem free4_31 : free4 2977 = true := by decide +kernel

end Gel.Crc
