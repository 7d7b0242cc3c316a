import Verif.Model.Utf8
import Mathlib.Data.List.Forall2
/-
What the scripts should do, in terms of samples and files.
-/
namespace Tokengeex
namespace Spec

/-- A file of samples: each is followed by a NUL byte. -/
def fileOf (samples : List Str) : List UInt8 := samples.flatMap fun s => enc s ++ [0]

/-- Dividing a stream by quotas in bytes: first the test samples, then the training samples, then what is not used.  A sample
is taken as long as its quota has not been reached, so at most the last one reaches over it. -/
structure QuotaSplit (test train : Nat) (stream inTest inTrain rest : List Str) : Prop where
  all : stream = inTest ++ inTrain ++ rest
  testShort : ∀ front last, inTest = front ++ [last] → (fileOf front).length < test
  testFull : test ≤ (fileOf inTest).length ∨ (inTrain = [] ∧ rest = [])
  trainShort : ∀ front last, inTrain = front ++ [last] → (fileOf inTest).length + (fileOf front).length < test + train
  trainFull : test + train ≤ (fileOf inTest).length + (fileOf inTrain).length ∨ rest = []

/-- A text made from a sample: nothing from a sample of up to 288 characters; from a longer one, cut into chunks of the same
length between 32 and 128 (the last may be shorter), ten different chunks in some order with DEL between them. -/
def Infilled (sample piece : Str) : Prop :=
  (sample.length ≤ 288 ∧ piece = []) ∨
  (288 < sample.length ∧ ∃ (cut chosen others : List Str) (size : Nat), 32 ≤ size ∧ size ≤ 128 ∧ cut.flatten = sample ∧
    (∀ c ∈ cut.dropLast, c.length = size) ∧ (∀ c ∈ cut, c.length ≤ size) ∧ (chosen ++ others).Perm cut ∧ chosen.length = 10 ∧
    piece = List.intercalate ['\x7f'] chosen)

/-- A text made from several samples: what each gives, one after the other. -/
def MadeFrom (samples : List Str) (content : Str) : Prop :=
  ∃ pieces, List.Forall₂ Infilled samples pieces ∧ content = pieces.flatten

end Spec
end Tokengeex
