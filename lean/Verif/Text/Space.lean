/-!
# White space

The characters with the property White_Space of Unicode: what `str::trim` removes (`char::is_whitespace`) and what `\s` matches in the `regex` and
`fancy_regex` crates.
-/

namespace Verif.Text

/-- `char::is_whitespace` -/
def whiteSpace (c : Char) : Bool :=
  let n := c.toNat
  (9 ≤ n && n ≤ 13) || n == 32 || n == 0x85 || n == 0xA0 || n == 0x1680 || (0x2000 ≤ n && n ≤ 0x200A) || n == 0x2028 || n == 0x2029 || n == 0x202F ||
    n == 0x205F || n == 0x3000

/-- Specification: what is left of a text without the white space at its ends. -/
def Trimmed (text shown : List Char) : Prop :=
  ∃ a b, text = a ++ shown ++ b ∧ (∀ c ∈ a ++ b, whiteSpace c = true) ∧ (∀ c, shown.head? = some c ∨ shown.getLast? = some c → whiteSpace c = false)

end Verif.Text
