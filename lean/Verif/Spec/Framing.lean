import Verif.Model.Utf8
/-
The texts of the example of the Python package, bindings/python/example.py.
-/
namespace Tokengeex.Spec

/-- The special tokens it adds (line 31). -/
def exampleTokens : List Str := ["<s>".toList, "</s>".toList, "<pad>".toList, "<unk>".toList]

/-- `text` between the first two of them. -/
def framed (text : Str) : Str := "<s>".toList ++ text ++ "</s>".toList

/-- The sentences it encodes (lines 5 and 55), without the special tokens. -/
def sentence1 : Str := "Hello, world!".toList
def sentence2 : Str := "Hello, tokengeex!".toList

end Tokengeex.Spec
