import Verif.Model.Condense
import Verif.Model.Cryptodev
/-!
# Alignment

The members `required_alignment` and `preferred_alignment` of the implementations.  The functions themselves are modelled elsewhere;
those of `src/aix/aix.c` are calls of the operating system.
-/

namespace Lib842

/-- The last two members of `struct lib842_implementation`, include/lib842/common.h 60-61 -/
structure AlignInfo where
  required : Nat
  preferred : Nat
  deriving DecidableEq, Repr

/-- `get_sw842_implementation`, src/serial/842_compress.c 700-701 -/
def swAlign : AlignInfo := ⟨1, 1⟩

/-- `get_optsw842_implementation`, src/serial_optimized/842_compress.cpp 697-698 -/
def optAlign : AlignInfo := ⟨1, 8⟩

/-- `get_aix842_implementation`, src/aix/aix.c 26-28 -/
def aixAlign : AlignInfo := ⟨4096, 128⟩

/-- `get_hw842_implementation`, src/cryptodev/842_interface.c 332-337, the first time it is called; `page` is the page size. -/
def hwAlign (page : Nat) (info : Bool) (junk : BitVec 16) (s : DevState) : SysM (AlignInfo × DevState) := do
  let (req, s) ← requiredAlignment info junk s
  SysM.pure (⟨req, page⟩, s)

end Lib842
