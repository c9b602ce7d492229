/-!
# `static_log2.h` (`/repo/src/common/static_log2.h`)
-/

namespace Lib842

/-- The branches of the ladder, static_log2.h 27-118: tested bit and resulting value -/
def log2Ladder : List (Nat × Int) := [
  (31, 31), (30, 30), (29, 29), (28, 28), (27, 27), (26, 26), (25, 25), (24, 24), (23, 23),
  (22, 22), (21, 21), (20, 20), (19, 19), (18, 18), (17, 17), (16, 16), (15, 15), (14, 14),
  (13, 13), (12, 12), (11, 11), (10, 10), (9, 9), (8, 8), (7, 7), (6, 6), (5, 5), (4, 4),
  (3, 3), (2, 2), (1, 0)]

/-- `#if`/`#elif`/`#else`.  (Preprocessor arithmetic is at least 64 bits wide, so `1 << 31`
is positive.) -/
def ladder (arg : Nat) : List (Nat × Int) → Int
  | [] => -1
  | (k, v) :: rest => if arg &&& (1 <<< k) ≠ 0 then v else ladder arg rest

/-- `STATIC_LOG2_VALUE` for `STATIC_LOG2_ARG = arg` -/
def staticLog2 (arg : Nat) : Int := ladder arg log2Ladder

end Lib842
