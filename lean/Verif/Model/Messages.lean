import Verif.Model.Json
import Verif.Model.Number64
import Verif.Model.Python
/-
The texts of errors: src/lib.rs:226-260, bindings/python/src/lib.rs:22-37.  The `From` conversions of src/lib.rs:226-236 and
bindings/python/src/lib.rs:27-31 only wrap an error; the model has one type of errors and needs none.
-/
namespace Tokengeex

/-- `{}` of an unsigned integer. -/
def showNat (n : Nat) : Str := (decimal n).map Json.digitChar

/-- `Display` of `Error`, src/lib.rs:238-249.  The texts of IO and JSON errors come from other crates and are not modelled
(`none`); a panic has no `Error`. -/
def Err.display : Err → Option Str
  | .noPath pos len => some ("no path to position ".toList ++ showNat pos ++ '/' :: showNat len)
  | .outOfBounds id => some ("token id ".toList ++ showNat id ++ " is out of bounds".toList)
  | .panic => none
  | .diverge => none

/-- `Debug` of `Error`, src/lib.rs:251-260, likewise. -/
def Err.debug : Err → Option Str
  | .noPath pos len => some ("NoPath(".toList ++ showNat pos ++ ", ".toList ++ showNat len ++ [')'])
  | .outOfBounds id => some ("TokenIdOutOfBounds(".toList ++ showNat id ++ [')'])
  | .panic => none
  | .diverge => none

/-- The argument of the Python exception for an error of encoding or decoding, bindings/python/src/lib.rs:33-37. -/
def Python.Raised.text : Python.Raised → Option Str
  | .coding e => e.display
  | _ => none

end Tokengeex
