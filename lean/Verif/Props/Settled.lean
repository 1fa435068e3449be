import Verif.Proof.Settled
import Verif.Props.Unfold

/-!
# Quantifiers with one way to go on
-/

namespace Mregex
open Ast Spec

/-! ## C80 -/

/-- **C80**: if what follows a quantified character cannot begin with such a character, the mode of the quantifier does not matter: not for the question
which inputs the regex can be used with, -/
theorem C80_usable {a b : Ast} {fl : List RegexFlag} (h : Settled (Flags.ofList fl) false a b) (cat : Cat) :
    (Regex.mk a fl).Ok cat ↔ (Regex.mk b fl).Ok cat := (sameUse_of_akin (same_of_settled h)).ok

/-- **C80**: nor for any result of a method; all groups hold the same, also after a failed call (except the whole match). -/
theorem C80_results {a b : Ast} {fl : List RegexFlag} (h : Settled (Flags.ofList fl) false a b) {cat : Cat}
    (hR : (Regex.mk a fl).Ok cat) (M : Method) (s : List Byte) :
    SameCall ((Regex.mk a fl).invoke M cat s) ((Regex.mk b fl).invoke M cat s) := (sameUse_of_akin (same_of_settled h)).results hR M s

/-- **C80**: nor for what `tokenize` and `find_all` visit. -/
theorem C80_ranges {a b : Ast} {fl : List RegexFlag} (h : Settled (Flags.ofList fl) false a b) {cat : Cat}
    (hR : (Regex.mk a fl).Ok cat) (M : Method) (s : List Byte) (rounds : Nat) :
    rangeElements ⟨a, fl⟩ M cat s rounds = rangeElements ⟨b, fl⟩ M cat s rounds := (sameUse_of_akin (same_of_settled h)).ranges hR M s rounds

/-- Two characters that exclude each other, by computation over all bytes. -/
theorem averse_of_table {f : Flags} {c a : Ast} (inv : Bool) (ha : character a = true)
    (h : (List.range 256).all (fun n => !accepts f c (BitVec.ofNat 8 n) || !accepts f a (BitVec.ofNat 8 n)) = true) : Averse f c inv a := by
  refine .char ha (fun x hx => ?_)
  have := List.all_eq_true.1 h x.toNat (List.mem_range.2 x.isLt)
  simpa [hx] using this

/-- `[0-9]{2,}(?:,|;(.))+(?<=-x*).{0,3}?$` and `[0-9]{2,}?(?:,|;(.))+(?<=-x*+).{0,3}+$`, with `multiline`. -/
theorem exSettled : Settled { multiline := true } false
    (.seq [.rep .greedy 2 .inf (.range (ch '0') (ch '9')), .rep .greedy 1 .inf (.alt [.lit (ch ','), .seq [.lit (ch ';'), .cap 1 none .wildcard]]),
      .look .behind (.seq [.lit (ch '-'), .rep .greedy 0 .inf (.lit (ch 'x'))]), .rep .lazy 0 (.fin 3) .wildcard, .eol])
    (.seq [.rep .lazy 2 .inf (.range (ch '0') (ch '9')), .rep .greedy 1 .inf (.alt [.lit (ch ','), .seq [.lit (ch ';'), .cap 1 none .wildcard]]),
      .look .behind (.seq [.lit (ch '-'), .rep .possessive 0 .inf (.lit (ch 'x'))]), .rep .possessive 0 (.fin 3) .wildcard, .eol]) :=
  .trans (.before [] _ .greedy .lazy 2 .inf rfl (.rep _ _ (by decide) (.alt (fun a ha => by
      rcases List.mem_cons.1 ha with rfl | ha
      · exact averse_of_table _ rfl (by decide +kernel)
      · cases List.mem_singleton.1 ha
        exact .first _ (averse_of_table _ rfl (by decide +kernel))))))
    (.trans (.seq [_, _] _ (.behind (.after [] [] .greedy .possessive 0 .inf rfl (averse_of_table _ rfl (by decide +kernel)))))
      (.before [_, _, _] [] .lazy .possessive 0 (.fin 3) rfl (.eol (.inr (by decide)))))

example := fun M s => C80_results (fl := [.multiline]) (cat := .bidirectional) exSettled (Regex.ok_of_okb (by decide)) M s
example := C80_ranges (fl := [.multiline]) (cat := .bidirectional) exSettled (Regex.ok_of_okb (by decide)) .search
example := (C80_usable (fl := [.multiline]) exSettled .bidirectional).1 (Regex.ok_of_okb (by decide))

/-- Where what follows can begin with the character, the mode does matter: `a*a` and `a*+a` on `aa`. -/
example : ((Regex.mk (.seq [.rep .greedy 0 .inf (.lit (ch 'a')), .lit (ch 'a')]) []).match (txt "aa")).map (·.matched) = some true ∧
    ((Regex.mk (.seq [.rep .possessive 0 .inf (.lit (ch 'a')), .lit (ch 'a')]) []).match (txt "aa")).map (·.matched) = some false := by decide

/-- So it does if the character is in the way only without `icase`: `a*A` and `a*+A` on `aa`. -/
example : ((Regex.mk (.seq [.rep .greedy 0 .inf (.lit (ch 'a')), .lit (ch 'A')]) [.icase]).match (txt "aa")).map (·.matched) = some true ∧
    ((Regex.mk (.seq [.rep .possessive 0 .inf (.lit (ch 'a')), .lit (ch 'A')]) [.icase]).match (txt "aa")).map (·.matched) = some false := by decide

end Mregex
