import Verif.Proofs.Base64
/-
C31: the base64 codec used for tokens that are not valid UTF-8.
-/
namespace Tokengeex
open Spec

/-- C31.  Encoding writes the base64 form of the bytes (as specified by bits, `Spec.IsBase64`), every byte string has
exactly one base64 form, and decoding succeeds on exactly the texts that are the base64 form of some byte string and
returns that byte string: every other text is rejected. -/
theorem C31_base64 :
    (∀ bytes, IsBase64 bytes (Base64.encode bytes)) ∧
    (∀ bytes text, IsBase64 bytes text → text = Base64.encode bytes) ∧
    (∀ bytes text, Base64.decode text = some bytes ↔ IsBase64 bytes text) := by
  refine ⟨Base64.isBase64_encode, fun bytes text h => ?_, fun bytes text => ⟨fun h => ?_, fun h => ?_⟩⟩
  · exact (Base64.isBase64_unique h (Base64.isBase64_encode bytes)).1 rfl
  · rw [Base64.encode_decode text bytes h]
    exact Base64.isBase64_encode bytes
  · rw [(Base64.isBase64_unique h (Base64.isBase64_encode bytes)).1 rfl]
    exact Base64.decode_encode bytes

/-- "Man" is "TWFu" (the classical example), the byte 255 is "/w", and "/x" (trailing bits), "/" (truncated), "/w=="
(padding) and "é" are rejected. -/
example : Base64.encode [77, 97, 110] = ['T', 'W', 'F', 'u'] ∧ Base64.encode [255] = ['/', 'w'] ∧
    Base64.decode ['/', 'w'] = some [255] ∧ Base64.decode ['/', 'x'] = none ∧ Base64.decode ['/'] = none ∧
    Base64.decode ['/', 'w', '=', '='] = none ∧ Base64.decode ['é', 'é'] = none := by decide

end Tokengeex
