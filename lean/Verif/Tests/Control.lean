import Verif.Pid.FloatModel
import Verif.Pages.Model
import Verif.Param.Config
import Verif.Param.FloatModel

/-!
# The project's own tests of the controller, the page manager and the parameters, run on the models

The configuration is that of test/gel_conf.h.
-/
namespace Gel.Tests

section Pid
open Gel.Pid Gel.Round

/-- A call of one of the tests, and the value `pid_compute` returns after it. -/
def outputs (p : Pid Int) : List (List FOp) → Res (List Int)
  | [] => .ok []
  | os :: r => do
    let p ← runW 32 200 5 p (os.map (FOp.toOp 24))
    let y ← computeW 32 200 5 p
    let ys ← outputs p r
    pure (y :: ys)

def input (x : Int) : FOp := .other (.input x)
def setting (s : Setting Int) : FOp := .other (.set s)

/-- A gain as it is stored: the `double` constant converted to `float`. -/
def flt (x : ℚ) : ℚ := rnd 24 (rnd 53 x)

-- test_p, pid_test.c:25-39
example : outputs (Pid.init 200 5) [[.tune 1 0 0, setting (.sp 20), input 10], [.tune (flt (1 / 2)) 0 0], [input 20], [input 25]] =
    .ok [10, 5, 0, -2] := by decide +kernel

-- test_pi, pid_test.c:41-63. The tenth output is not 0 as the product with 0.01 is rounded up to 1.
example : (outputs (Pid.init 200 5) ([[.tune (flt (1 / 100)) (flt (1 / 100)) 0, setting (.sp 100), input 90]] ++
      List.replicate 17 [input 90] ++ [[setting .clear, input 90], [setting .clear, input 0]])) =
    .ok (List.replicate 9 0 ++ List.replicate 9 1 ++ [0, 2]) := by decide +kernel
example : flt (1 / 100) * 100 < 1 := by decide +kernel

-- test_pi_threshold, pid_test.c:66-115, with ten times less rounds in the loops of 100
example : outputs (Pid.init 200 5) ([[.tune 0 (flt (1 / 100)) 0, setting (.low 50), setting (.lowEn true), setting (.high 10),
        setting (.highEn true), setting (.sp 100), input 0]] ++ List.replicate 9 [input 0] ++ List.replicate 12 [input 60] ++
      [[.tune 0 1 0, input 120], [setting (.auto true), input 50]] ++ (List.range 10).map (fun i => [input (110 + i)]) ++
      [[input 109], [input 109], [input 110], [input 150]]) =
    .ok (List.replicate 10 0 ++ [0, 0, 1, 1, 2, 2, 2, 3, 3, 4, 4, 4] ++ [480, 0] ++ List.replicate 10 0 ++ [-9, -18, -18, -18]) := by
  decide +kernel

-- test_pd, pid_test.c:117-139
example : outputs (Pid.init 200 5) ([[.tune 0 0 1, setting (.sp 100), input 100]] ++
      (List.range 25).map fun i => [input (100 + 10 * (i + 1))]) =
    .ok ([0, -10, -20, -30, -40, -50] ++ List.replicate 20 (-50)) := by decide +kernel

-- test_field_data, pid_test.c:142-150
example : outputs (Pid.init 200 5) [[.tune (flt (1 / 2)) (flt (1 / 10)) 0, setting (.sp 180), input 0], [input 0]] =
    .ok [108, 126] := by decide +kernel

end Pid

section Pages
open Gel.Pages

/-- The pages of pman_test.c:108-125. -/
def page (id : Int) : Tmpl := ⟨id, true, true, true, true, false, true⟩

def conf : Conf Unit := ⟨5, false, false, (), fun _ => ()⟩

/-- The id of the current page, and how often the create, open, close and destroy callbacks of pages 1 to 3 were called. -/
def counts (m : Pm Unit Unit) : Option Int × List (List Nat) :=
  (m.cur.map (·.tmpl.id), [Kind.create, .open, .close, .destroy].map fun k => [1, 2, 3].map fun i =>
    (m.trace.filter fun e => e.kind = k ∧ e.page.tmpl.id = i).length)

def states (m : Pm Unit Unit) : List (Op Unit) → Res (List (Option Int × List (List Nat)))
  | [] => .ok []
  | o :: os => do
    let m ← Pages.step conf m o
    let r ← states m os
    pure (counts m :: r)

-- test_change_page, pman_test.c:138-167
example : states (Pages.init none) [.change (page 1) (), .change (page 2) (), .change (page 3) (), .back, .back] =
    .ok [(some 1, [[1, 0, 0], [1, 0, 0], [0, 0, 0], [0, 0, 0]]), (some 2, [[1, 1, 0], [1, 1, 0], [1, 0, 0], [0, 0, 0]]),
      (some 3, [[1, 1, 1], [1, 1, 1], [1, 1, 0], [0, 0, 0]]), (some 2, [[1, 1, 1], [1, 2, 1], [1, 1, 1], [0, 0, 1]]),
      (some 1, [[1, 1, 1], [2, 2, 1], [1, 2, 1], [0, 1, 1]])] := by decide +kernel
-- test_swap_page, pman_test.c:170-203
example : states (Pages.init none) [.change (page 1) (), .change (page 2) (), .swap (page 3) (), .back] =
    .ok [(some 1, [[1, 0, 0], [1, 0, 0], [0, 0, 0], [0, 0, 0]]), (some 2, [[1, 1, 0], [1, 1, 0], [1, 0, 0], [0, 0, 0]]),
      (some 3, [[1, 1, 1], [1, 1, 1], [1, 1, 0], [0, 1, 0]]), (some 1, [[1, 1, 1], [2, 1, 1], [1, 1, 1], [0, 1, 1]])] := by
  decide +kernel

end Pages

section Param
open Gel.Param

/-- The value at 0 after each of some calls of `parameter_operator`. -/
def operators (h : Handle) (m : Param.Mem) : List Int → Res (List Int)
  | [] => .ok []
  | x :: xs => do
    let (m, _) ← operator (ieee 64) m (some h) x
    let r ← operators h m xs
    pure (rdv m h.pointer h.type :: r)

-- test_basic, parameter_test.c:13-31; the last test of its second half is about the macro PARAMETER_DLIMITS only
example : let h := parameterStep 8 false .u32 0 0 10 2 1 1
    member .u32 h.max = 10 ∧ operators h (wrv (fun _ => 0) 0 .u32 5) [1, 1, 1, 1, 1, 1] = .ok [6, 7, 8, 9, 10, 0] := by
  decide +kernel

/-- The handles of parameter_test.c:40-45. The limits of a `float` are 0, 10 and 3 as such. -/
def handles : List Handle :=
  [parameterStep 8 false .i32 0 0 10 1 1 1, parameterStep 8 false .u8 4 0 100 2 1 1,
    { parameterStep 8 false .flt 8 0 0 0 0 1 with max := 0x41200000, defaultv := 0x40400000, step := 0x3F800000 },
    parameterStep 8 false .u64 16 0 1000000 4 1 1]

/-- The four variables, parameter_test.c:35-38; the third as the bits of a `float`. -/
def setVars (a b c d : Int) (m : Param.Mem) : Param.Mem := wrv (wrv (wrv (wrv m 0 .i32 a) 4 .u8 b) 8 .flt c) 16 .u64 d

def readAll (m : Param.Mem) : List Int := [rdv m 0 .i32, rdv m 4 .u8, rdv m 8 .flt, rdv m 16 .u64]

/-- `parameter_check_ranges`. -/
def check (m : Param.Mem) : Res (Param.Mem × Int) := do
  let (s, n) ← checkRanges (fun _ _ s => s) (ieee 64) (handles, m)
  pure (s.2, n)

-- test_corrupted_value, parameter_test.c:34-61
example : (do
    let m := setVars 5 10 0x3F000000 500000 (fun _ => 0xEE)
    let (m, a) ← check m
    let (m, b) ← check (wrv m 16 .u64 2000000)
    let (m, c) ← check m
    let (m, d) ← check (setVars 1000 101 0x41280000 (rdv m 16 .u64) m)
    pure (a, b, c, d, readAll m)) = .ok (0, 1, 0, 3, [1, 2, 0x40400000, 4]) := by decide +kernel

end Param

end Gel.Tests
