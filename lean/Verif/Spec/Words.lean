import Verif.Names

/-!
# The words of a text
-/

namespace Verif.Codegen

/-- The words of a text: what is between white space. -/
inductive Splits : List Char → List (List Char) → Prop where
  | done {sp} : (∀ c ∈ sp, isSpace c = true) → Splits sp []
  | word {sp w rest ws} : (∀ c ∈ sp, isSpace c = true) → w ≠ [] → (∀ c ∈ w, isSpace c = false) → (∀ c, rest.head? = some c → isSpace c = true) →
    Splits rest ws → Splits (sp ++ (w ++ rest)) (w :: ws)

/-- The key with this name, among those of the library and those of the user: `none` if there is none, `some none` if it is the
transparent key. -/
def TextSrc.named (t : TextSrc) (w : List Char) : Option (Option NKey) := (keyNames ++ t.custom).lookup (String.ofList w)

end Verif.Codegen
