import Verif.Proof.Branches
import Verif.Proof.Plain
import Verif.Props.Expressions
import Verif.Props.Variants

/-!
# Regexes without references
-/

namespace Mregex
open Ast Spec

theorem sameUse_of_rebranch {fl : List RegexFlag} {cat : Cat} {a b : Ast} (hb : noBackref a = true) (h : Rebranch a b) : SameUse fl cat a b := by
  obtain ⟨b', h, hv⟩ := rebranch_al h
  refine SameUse.trans ?_ (sameUse_of_variant (hv _ _))
  have hn : (Regex.mk a fl).names = (Regex.mk b' fl).names := by simp only [Regex.names, h.names]
  have hE : ∀ s, (Regex.mk a fl).env cat s = (Regex.mk b' fl).env cat s := fun s => by simp only [Regex.env, hn]
  refine ⟨forall_congr' (fun s => ?_), fun _ M s cur _ => ?_⟩
  · rw [← hE]; exact (h.ok 0).1
  · rw [← hE, ← hn]; exact al_invoke (E := (Regex.mk a fl).env cat s) h hb M cur _

theorem sameUse_of_relaid {fl : List RegexFlag} {cat : Cat} {a b : Ast} (h : Relaid (Flags.ofList fl) a b) : SameUse fl cat a b := by
  induction h with
  | variant h => exact sameUse_of_variant h
  | rebranch hb h => exact sameUse_of_rebranch hb h
  | symm _ ih => exact ih.symm
  | trans _ _ ih ih' => exact ih.trans ih'

/-! ## C59 -/

/-- **C59**, where there are no references: parentheses around any branches, and repeated branches, do not change which inputs a regex can
be used with. -/
theorem C59_relaid_usable {a b : Ast} {fl : List RegexFlag} (h : Relaid (Flags.ofList fl) a b) (cat : Cat) :
    (Regex.mk a fl).Ok cat ↔ (Regex.mk b fl).Ok cat := (sameUse_of_relaid h).ok

/-- **C59**, where there are no references: nor do they change any result of a method. -/
theorem C59_relaid_results {a b : Ast} {fl : List RegexFlag} (h : Relaid (Flags.ofList fl) a b) {cat : Cat}
    (hR : (Regex.mk a fl).Ok cat) (M : Method) (s : List Byte) :
    SameCall ((Regex.mk a fl).invoke M cat s) ((Regex.mk b fl).invoke M cat s) := (sameUse_of_relaid h).results hR M s

/-- **C59**, where there are no references: nor what `tokenize` and `find_all` visit. -/
theorem C59_relaid_ranges {a b : Ast} {fl : List RegexFlag} (h : Relaid (Flags.ofList fl) a b) {cat : Cat}
    (hR : (Regex.mk a fl).Ok cat) (M : Method) (s : List Byte) (rounds : Nat) :
    rangeElements ⟨a, fl⟩ M cat s rounds = rangeElements ⟨b, fl⟩ M cat s rounds := (sameUse_of_relaid h).ranges hR M s rounds

/-- `(x)(?:(?:a|b)|cd|cd)+` and `(x)(?:[ab]|cd)+`. -/
theorem exRelaid (f : Flags) : Relaid f
    (.seq [.cap 1 none (.lit (ch 'x')), plus (.alt [.alt [.lit (ch 'a'), .lit (ch 'b')], .seq [.lit (ch 'c'), .lit (ch 'd')],
      .seq [.lit (ch 'c'), .lit (ch 'd')]])])
    (.seq [.cap 1 none (.lit (ch 'x')), plus (.alt [.lit (ch 'a'), .lit (ch 'b'), .seq [.lit (ch 'c'), .lit (ch 'd')]])]) :=
  .trans (.rebranch (by decide) (.seq [_] [] (.rep _ _ _ (.dissolve [] [_, _] [_, _] (by simp)))))
    (.rebranch (by decide) (.seq [_] [] (.rep _ _ _ (.twice [_, _] _ [] rfl (.inl (by simp))))))

example (M : Method) (s : List Byte) := C59_relaid_results (fl := [.icase]) (cat := .forward) (exRelaid _) (Regex.ok_of_okb (by decide)) M s
example := C59_relaid_ranges (fl := []) (cat := .forward) (exRelaid _) (Regex.ok_of_okb (by decide)) .search
example := (C59_relaid_usable (fl := []) (exRelaid _) .forward).1 (Regex.ok_of_okb (by decide))

/-! ## C46 -/

/-- **C46**, flattening, partial: the regex of an expression without references does what the plain tree of the expression does, in which
every function makes one node out of its arguments.  Both are usable with the same inputs, have the same groups, all methods return the same
verdict and groups, and `tokenize` and `find_all` visit the same results.  Missing: expressions with references, for which it is false
(`C46_either_backref_false`; but see `C46_concat` and `C46_either_groups_partial`). -/
theorem C46_flattening_partial {e : Xpr.Expr} {R : Regex} (h : Xpr.eval e = some R) (hb : noBackref R.ast = true) (cat : Cat) :
    nameSpec (plain e) = nameSpec R.ast ∧ ((Regex.mk (plain e) R.flags).Ok cat ↔ R.Ok cat) ∧
    (R.Ok cat → ∀ (M : Method) (s : List Byte),
      SameCall ((Regex.mk (plain e) R.flags).invoke M cat s) (R.invoke M cat s) ∧
      ∀ rounds, rangeElements ⟨plain e, R.flags⟩ M cat s rounds = rangeElements R M cat s rounds) := by
  have hp := pl_eval e R h
  have hn : (Regex.mk (plain e) R.flags).names = R.names := by simp only [Regex.names, hp.facts.names]
  have hok : (Regex.mk (plain e) R.flags).Ok cat ↔ R.Ok cat := by
    refine forall_congr' (fun s => ?_)
    have hE : (Regex.mk (plain e) R.flags).env cat s = R.env cat s := by simp only [Regex.env, hn, Regex.fl]
    rw [hE]
    exact (hp.facts.ok _ 0).1
  refine ⟨hp.facts.names, hok, fun hR M s => ?_⟩
  have hR' := hok.2 hR
  have hs := hp.steps (Flags.ofList R.flags) false ((Regex.mk (plain e) R.flags).env cat s) 0 rfl (hR' s)
  have ha : SameUse R.flags cat (plain e) R.ast := sameUse_of_relaid (hs.relaid rfl (by rw [hp.facts.refs]; exact hb))
  exact ⟨ha.results hR' M s, ha.ranges hR' M s⟩

/-- `(chr<'a'> | chr<'b'>) | (chr<'c'> >> (chr<'d'> >> capture<1>(chr<'e'>)))`. -/
def exDeepExpr : Xpr.Expr :=
  .bitOr (.bitOr (.chr (ch 'a')) (.chr (ch 'b'))) (.shiftRight (.chr (ch 'c')) (.shiftRight (.chr (ch 'd')) (.capture 1 none [.chr (ch 'e')])))

theorem exDeepExpr_eval : Xpr.eval exDeepExpr =
    some ⟨.alt [.lit (ch 'a'), .lit (ch 'b'), .seq [.lit (ch 'c'), .lit (ch 'd'), .cap 1 none (.lit (ch 'e'))]], []⟩ := by
  simp [exDeepExpr, Xpr.eval, Xpr.operands, Xpr.bitOr, Xpr.shiftRight, either_eq, concat_eq, Xpr.node, Xpr.toRegex, Xpr.packed, Xpr.capture,
    Xpr.pack, Xpr.chr, seqParts, altParts]

example : plain exDeepExpr = .alt [.alt [.lit (ch 'a'), .lit (ch 'b')],
    .seq [.lit (ch 'c'), .seq [.lit (ch 'd'), .cap 1 none (.seq [.lit (ch 'e')])]]] := rfl

example := (C46_flattening_partial exDeepExpr_eval (by decide) .forward).2.2 (Regex.ok_of_okb (by decide))

/-- **C46**, alternation, partial: without references, the alternation built by `xpr::either` (and `|`) can replace the plain alternation of
the operands between other sub-expressions; all results are the same, with all groups. -/
theorem C46_either_partial (pre l post : List Ast) (a : Ast) (ha : Xpr.either l = some a) (fl : List RegexFlag) (cat : Cat)
    (hR : (Regex.mk (.seq (pre ++ .alt l :: post)) fl).Ok cat) (hb : noBackref (.seq (pre ++ .alt l :: post)) = true) :
    (Regex.mk (.seq (pre ++ a :: post)) fl).Ok cat ∧ ∀ (M : Method) (s : List Byte),
    SameCall ((Regex.mk (.seq (pre ++ a :: post)) fl).invoke M cat s) ((Regex.mk (.seq (pre ++ .alt l :: post)) fl).invoke M cat s) := by
  have hl : ∀ b ∈ l, altParts b ≠ [] := by
    intro b hb'
    have hok := (ok_seq.1 (hR [])).2 (.alt l) (by simp)
    have := (ok_alt.1 hok).2 b hb'
    cases b with
    | alt l' => exact (ok_alt.1 this).1
    | _ => simp [altParts]
  have hp := Pl.seq pre post (pl_either ha hl)
  have hs := hp.steps (Flags.ofList fl) false ((Regex.mk (.seq (pre ++ .alt l :: post)) fl).env cat []) 0 rfl (hR [])
  have h : SameUse fl cat _ _ := sameUse_of_relaid (hs.relaid rfl hb)
  exact ⟨h.ok.1 hR, h.symm.results (h.ok.1 hR)⟩

example := C46_either_partial [.lit (ch 'x')] [.alt [.lit (ch 'a'), Xpr.str [ch 'a', ch 'b']], .lit (ch 'c')] [.eoi]
  (.alt [.lit (ch 'a'), Xpr.str [ch 'a', ch 'b'], .lit (ch 'c')])
  (by simp [Xpr.either, Xpr.flatWrap, Xpr.flattenAlt]) [.icase] .forward (Regex.ok_of_okb (by decide)) (by decide)

end Mregex
