import Verif.Props.Show
import Verif.Props.TLDraw
/-!
# Pictures of morphisms (C120)

Vocabulary (Spec/Show.lean): `Text.summands s` are the texts between the signs in the paragraph `s`.
-/
namespace Peyl
open Text Adapter
namespace Show

theorem find_none (pat t : List Char) (h : ¬ pat <:+: t) : find pat t = none := by
  induction t with
  | nil => rfl
  | cons c t ih =>
    rw [find, if_neg, ih fun hi => h (hi.trans (List.suffix_cons c t).isInfix)]
    · rfl
    · rw [List.isPrefixOf_iff_prefix]
      exact fun hp => h hp.isInfix

/-- The sign between two summands. -/
def sign : List Char := ['<', 's', 'p', 'a', 'n', ' ', 's', 't', 'y', 'l', 'e', '=', '\"', 'p', 'a', 'd', 'd', 'i', 'n', 'g', ':', ' ', '0', ' ', '0', '.', '3', 'e', 'm', '\"', '>', '$', '+', '$', '<', '/', 's', 'p', 'a', 'n', '>']

/-- The opening tag of the paragraph. -/
def parAttr : List Char := [' ', 's', 't', 'y', 'l', 'e', '=', '\"', 'd', 'i', 's', 'p', 'l', 'a', 'y', ':', ' ', 'f', 'l', 'e', 'x', ';', 'f', 'l', 'e', 'x', '-', 'd', 'i', 'r', 'e', 'c', 't', 'i', 'o', 'n', ':', ' ', 'r', 'o', 'w', ';', 'f', 'l', 'e', 'x', '-', 'w', 'r', 'a', 'p', ':', ' ', 'w', 'r', 'a', 'p', ';', 'j', 'u', 's', 't', 'i', 'f', 'y', '-', 'c', 'o', 'n', 't', 'e', 'n', 't', ':', ' ', 'f', 'l', 'e', 'x', '-', 's', 't', 'a', 'r', 't', ';', 'a', 'l', 'i', 'g', 'n', '-', 'i', 't', 'e', 'm', 's', ':', ' ', 'c', 'e', 'n', 't', 'e', 'r', ';', '\"']

/-- A text whose occurrences begin at `<` does not straddle two texts if the second begins otherwise than the rest of it allows. -/
theorem noInfix_of_head (p a b : List Char) (h0 : '<' ∉ p) (ha : '<' ∉ a) (hb : ¬ ('<' :: p) <:+: b) : ¬ ('<' :: p) <:+: a ++ b := by
  rintro ⟨l, r, e⟩
  rw [List.append_assoc] at e
  rcases List.append_eq_append_iff.1 e with ⟨u, e1, e2⟩ | ⟨u, e1, e2⟩
  · cases u with
    | nil =>
      rw [List.nil_append] at e2
      exact hb ⟨[], r, by rw [List.nil_append]; exact e2⟩
    | cons x u =>
      rw [List.cons_append, List.cons_append] at e2
      exact ha (by rw [e1, ← (List.cons.inj e2).1]; simp)
  · exact hb ⟨u, r, by rw [e2, List.append_assoc]⟩

/-- Nothing that begins with `<` straddles a place where `<` comes next. -/
theorem noInfix_of_next (p a b : List Char) (h0 : '<' ∉ p) (ha : ¬ ('<' :: p) <:+: a) (hb : ¬ ('<' :: p) <:+: b) (h : ∃ b', b = '<' :: b') :
    ¬ ('<' :: p) <:+: a ++ b := by
  rintro ⟨l, r, e⟩
  rw [List.append_assoc] at e
  rcases List.append_eq_append_iff.1 e with ⟨u, e1, e2⟩ | ⟨u, e1, e2⟩
  · rcases List.append_eq_append_iff.1 e2 with ⟨v, e3, e4⟩ | ⟨v, e3, e4⟩
    · exact ha ⟨l, v, by rw [e1, e3, List.append_assoc]⟩
    · cases u with
      | nil =>
        rw [List.nil_append] at e3
        exact hb ⟨[], r, by rw [List.nil_append, e4, e3]⟩
      | cons x u =>
        cases v with
        | nil => exact ha ⟨l, [], by rw [e3]; simpa using e1.symm⟩
        | cons y v =>
          obtain ⟨b', h⟩ := h
          rw [h] at e4
          rw [List.cons_append] at e3 e4
          refine h0 ?_
          rw [(List.cons.inj e3).2, ← (List.cons.inj e4).1]
          simp
  · exact hb ⟨u, r, by rw [e2, List.append_assoc]⟩

/-- A text ending in `>` before. -/
theorem noInfix_of_end (p a b : List Char) (h0 : '>' ∉ p.dropLast) (hp : p ≠ []) (ha : ¬ ('<' :: p) <:+: a ++ ['>']) (hb : ¬ ('<' :: p) <:+: b) :
    ¬ ('<' :: p) <:+: a ++ ['>'] ++ b := by
  rintro ⟨l, r, e⟩
  rw [List.append_assoc] at e
  rcases List.append_eq_append_iff.1 e with ⟨u, e1, e2⟩ | ⟨u, e1, e2⟩
  · rcases List.append_eq_append_iff.1 e2 with ⟨v, e3, e4⟩ | ⟨v, e3, e4⟩
    · exact ha ⟨l, v, by rw [e1, e3, List.append_assoc]⟩
    · rcases List.eq_nil_or_concat u with rfl | ⟨u, x, rfl⟩
      · rw [List.nil_append] at e3
        exact hb ⟨[], r, by rw [List.nil_append, e4, e3]⟩
      · rcases List.eq_nil_or_concat v with rfl | ⟨v, y, rfl⟩
        · exact ha ⟨l, [], by rw [e3]; simpa using e1.symm⟩
        · rw [List.concat_eq_append, ← List.append_assoc] at e1
          have hx := (List.append_inj' e1 rfl).2
          rw [List.concat_eq_append, List.concat_eq_append] at e3
          cases u with
          | nil =>
            have := (List.cons.inj e3).1
            rw [← this] at hx
            revert hx; decide
          | cons z u =>
            rw [List.cons_append, List.cons_append] at e3
            have h1 := (List.cons.inj e3).2
            refine h0 ?_
            rw [h1, ← List.append_assoc, List.dropLast_concat, ← hx]
            simp
  · exact hb ⟨u, r, by rw [e2, List.append_assoc]⟩

theorem betweenSigns_join (l : List (List Char)) (h : ∀ t ∈ l, ¬ ['<', 's', 'p', 'a', 'n'] <:+: t) (hl : l ≠ []) (n : Nat) (hn : l.length ≤ n) :
    betweenSigns n (joinWith sign l) = l := by
  induction l generalizing n with
  | nil => exact absurd rfl hl
  | cons t l ih =>
    obtain ⟨k, rfl⟩ : ∃ k, n = k + 1 := ⟨n - 1, by simp only [List.length_cons] at hn; omega⟩
    cases l with
    | nil => rw [joinWith, betweenSigns, find_none _ _ (h t (by simp))]
    | cons u l =>
      have e : joinWith sign (t :: u :: l) = t ++ ['<', 's', 'p', 'a', 'n'] ++ ([' ', 's', 't', 'y', 'l', 'e', '=', '\"', 'p', 'a', 'd', 'd', 'i', 'n', 'g', ':', ' ', '0', ' ', '0', '.', '3', 'e', 'm', '\"', '>', '$', '+', '$'] ++ ['<', '/', 's', 'p', 'a', 'n', '>'] ++ joinWith sign (u :: l)) := by
        rw [joinWith]
        simp only [List.append_assoc]
        rfl
      rw [e, betweenSigns, find_hit _ t _ '<' _ rfl (by decide) (h t (by simp))]
      simp only
      rw [find_hit _ _ _ '<' _ rfl (by decide) (by decide)]
      simp only
      rw [ih (fun x hx => h x (by simp only [List.mem_cons] at hx ⊢; tauto)) (by simp) k (by simp only [List.length_cons] at hn ⊢; omega)]

theorem joinSign_length (l : List (List Char)) (h : ∀ t ∈ l, 1 ≤ t.length) : l.length ≤ (joinWith sign l).length := by
  induction l with
  | nil => simp
  | cons t l ih =>
    have ht := h t (by simp)
    cases l with
    | nil => simpa [joinWith] using ht
    | cons u l =>
      have ih := ih fun x hx => h x (by simp only [List.mem_cons] at hx ⊢; tauto)
      rw [joinWith, List.length_append, List.length_append]
      simp only [List.length_cons] at ih ⊢
      omega

theorem noPar_join (l : List (List Char)) (h : ∀ t ∈ l, ¬ ['<', '/', 'p', '>'] <:+: t) : ¬ ['<', '/', 'p', '>'] <:+: joinWith sign l := by
  induction l with
  | nil => decide
  | cons t l ih =>
    cases l with
    | nil => exact h t (by simp)
    | cons u l =>
      have ih := ih fun x hx => h x (by simp only [List.mem_cons] at hx ⊢; tauto)
      rw [joinWith, List.append_assoc]
      refine noInfix_of_next _ _ _ (by decide) (h t (by simp)) ?_ ⟨_, rfl⟩
      exact noInfix_of_end _ ['<', 's', 'p', 'a', 'n', ' ', 's', 't', 'y', 'l', 'e', '=', '\"', 'p', 'a', 'd', 'd', 'i', 'n', 'g', ':', ' ', '0', ' ', '0', '.', '3', 'e', 'm', '\"', '>', '$', '+', '$', '<', '/', 's', 'p', 'a', 'n'] _ (by decide) (by decide) (by decide) ih

/-- What stands for a term: its coefficient and its picture. -/
def termText (svg : List Nat → Nat → List Char) (x : TLDiag × LPoly) : List Char := "$(".toList ++ x.2.fmt true ++ ")$".toList ++ svg x.1.seq x.1.bot

theorem fmt_char (b : Bool) (p : LPoly) (c : Char) (hc : ¬ LPoly.fmtChar c) : c ∉ p.fmt b := fun h => hc (LPoly.fmtChar_fmt b p c h)

theorem morHtml_eq (svg : List Nat → Nat → List Char) (m : TLMor) (h : ∀ x ∈ m.terms, x.1.Ok) :
    morHtml svg m = .ok (('<' :: 'p' :: parAttr) ++ '>' :: (joinWith sign (m.terms.map (termText svg)) ++ ['<', '/', 'p', '>'] ++ [])) := by
  have e : (m.terms.mapM fun x => do
      let _ ← TLDraw.drawSvg x.1.seq x.1.bot
      .ok (['$', '('] ++ x.2.fmt true ++ [')', '$'] ++ svg x.1.seq x.1.bot)) = .ok (m.terms.map (termText svg)) := by
    refine TL.mapM_ok _ _ _ fun x hx => ?_
    obtain ⟨p, hp, -⟩ := TLDraw.C115_arcs x.1 (h x hx)
    rw [hp, bind_ok]; rfl
  rw [morHtml, e, bind_ok, List.append_assoc, List.append_nil]
  rfl

/-! ## C120 -/

/-- C120: the picture of a morphism shows, in the order of its terms, each coefficient with the picture of its diagram. -/
theorem C120_terms (svg : List Nat → Nat → List Char) (m : TLMor) (h : ∀ x ∈ m.terms, x.1.Ok)
    (hs : ∀ x ∈ m.terms, ¬ "<span".toList <:+: svg x.1.seq x.1.bot ∧ ¬ "</p>".toList <:+: svg x.1.seq x.1.bot) :
    ∃ s, morHtml svg m = .ok s ∧ summands s = m.terms.map fun x => "$(".toList ++ x.2.fmt true ++ ")$".toList ++ svg x.1.seq x.1.bot := by
  refine ⟨_, morHtml_eq svg m h, ?_⟩
  have clean : ∀ x : TLDiag × LPoly, '<' ∉ "$(".toList ++ x.2.fmt true ++ ")$".toList := by
    intro x
    have := fmt_char true x.2 '<' (by unfold LPoly.fmtChar; decide)
    simp [this]
  have k1 : ∀ t ∈ m.terms.map (termText svg), ¬ ['<', 's', 'p', 'a', 'n'] <:+: t := by
    intro t ht
    obtain ⟨x, hx, rfl⟩ := List.mem_map.1 ht
    exact noInfix_of_head _ _ _ (by decide) (clean x) (hs x hx).1
  have k2 : ∀ t ∈ m.terms.map (termText svg), ¬ ['<', '/', 'p', '>'] <:+: t := by
    intro t ht
    obtain ⟨x, hx, rfl⟩ := List.mem_map.1 ht
    exact noInfix_of_head _ _ _ (by decide) (clean x) (hs x hx).2
  rw [summands, find_gt _ _ (by decide)]
  simp only
  rw [find_hit _ _ _ '<' _ rfl (by decide) (noPar_join _ k2)]
  cases hm : m.terms with
  | nil => rfl
  | cons x l =>
    have hne : joinWith sign ((x :: l).map (termText svg)) ≠ [] := by
      cases l with
      | nil => simp [joinWith, termText]
      | cons y l => simp [joinWith, termText]
    rw [← hm] at hne ⊢
    have hlen := joinSign_length (m.terms.map (termText svg)) (by
      intro t ht
      obtain ⟨y, -, rfl⟩ := List.mem_map.1 ht
      simp [termText])
    split
    · exact absurd (by assumption) (by simp)
    · rename_i heq; simp only [Option.some.injEq, Prod.mk.injEq] at heq; exact absurd heq.1 hne
    · rename_i heq
      simp only [Option.some.injEq, Prod.mk.injEq] at heq
      rw [← heq.1]
      exact betweenSigns_join _ k1 (by rw [hm]; simp) _ hlen

theorem termText_inj (svg : List Nat → Nat → List Char) (hsvg : ∀ d e : TLDiag, d.Ok → e.Ok → svg d.seq d.bot = svg e.seq e.bot → TLDraw.drawSvg d.seq d.bot = TLDraw.drawSvg e.seq e.bot)
    (x y : TLDiag × LPoly) (hx : x.1.Ok ∧ x.2.Trimmed) (hy : y.1.Ok ∧ y.2.Trimmed) (h : termText svg x = termText svg y) : x = y := by
  have nx := fmt_char true x.2 ')' (by unfold LPoly.fmtChar; decide)
  have ny := fmt_char true y.2 ')' (by unfold LPoly.fmtChar; decide)
  simp only [termText, List.append_assoc] at h
  have h1 : x.2.fmt true ++ ')' :: ('$' :: svg x.1.seq x.1.bot) = y.2.fmt true ++ ')' :: ('$' :: svg y.1.seq y.1.bot) := List.append_cancel_left h
  have key : ∀ (a b c d : List Char), ')' ∉ a → ')' ∉ b → a ++ ')' :: c = b ++ ')' :: d → a = b ∧ c = d := by
    intro a b c d ha hb e
    have e1 := congrArg (cut ')') e
    rw [cut_first _ ha, cut_first _ hb] at e1
    obtain rfl := (List.cons.inj e1).1
    exact ⟨rfl, (List.cons.inj (List.append_cancel_left e)).2⟩
  obtain ⟨e1, e2⟩ := key _ _ _ _ nx ny h1
  have e3 := (List.cons.inj e2).2
  exact Prod.ext (TLDraw.C115_faithful _ _ hx.1 hy.1 (hsvg _ _ hx.1 hy.1 e3)) (((C92_injective x.2 y.2 hx.2 hy.2).1 true).1 e1)

/-- C120: morphisms whose pictures are the same have the same terms, if the texts of pictures tell different curves apart. -/
theorem C120_faithful (svg : List Nat → Nat → List Char)
    (hsvg : ∀ d e : TLDiag, d.Ok → e.Ok → svg d.seq d.bot = svg e.seq e.bot → TLDraw.drawSvg d.seq d.bot = TLDraw.drawSvg e.seq e.bot)
    (hs : ∀ d : TLDiag, d.Ok → ¬ "<span".toList <:+: svg d.seq d.bot ∧ ¬ "</p>".toList <:+: svg d.seq d.bot)
    (m m' : TLMor) (h : ∀ x ∈ m.terms, x.1.Ok ∧ x.2.Trimmed) (h' : ∀ x ∈ m'.terms, x.1.Ok ∧ x.2.Trimmed) (he : morHtml svg m = morHtml svg m') :
    m.terms = m'.terms := by
  obtain ⟨s, h1, h2⟩ := C120_terms svg m (fun x hx => (h x hx).1) fun x hx => hs x.1 (h x hx).1
  obtain ⟨s', h1', h2'⟩ := C120_terms svg m' (fun x hx => (h' x hx).1) fun x hx => hs x.1 (h' x hx).1
  rw [h1, h1'] at he
  cases he
  rw [h2] at h2'
  change m.terms.map (termText svg) = m'.terms.map (termText svg) at h2'
  have : ∀ l l' : List (TLDiag × LPoly), (∀ x ∈ l, x.1.Ok ∧ x.2.Trimmed) → (∀ x ∈ l', x.1.Ok ∧ x.2.Trimmed) → l.map (termText svg) = l'.map (termText svg) → l = l' := by
    intro l
    induction l with
    | nil => intro l' _ _ e; cases l' with
      | nil => rfl
      | cons y l' => simp at e
    | cons x l ih =>
      intro l' hl hl' e
      cases l' with
      | nil => simp at e
      | cons y l' =>
        obtain ⟨e1, e2⟩ := List.cons.inj e
        rw [termText_inj svg hsvg x y (hl x (by simp)) (hl' y (by simp)) e1, ih l' (fun z hz => hl z (by simp [hz])) (fun z hz => hl' z (by simp [hz])) e2]
  exact this _ _ h h' h2'

/-- There are such texts. -/
example : ∃ svg : List Nat → Nat → List Char,
    (∀ d e : TLDiag, d.Ok → e.Ok → svg d.seq d.bot = svg e.seq e.bot → TLDraw.drawSvg d.seq d.bot = TLDraw.drawSvg e.seq e.bot) ∧
    (∀ d : TLDiag, d.Ok → ¬ "<span".toList <:+: svg d.seq d.bot ∧ ¬ "</p>".toList <:+: svg d.seq d.bot) := by
  refine ⟨fun seq bot => List.replicate (Encodable.encode (seq, bot)) 'a', ?_, ?_⟩
  · intro d e _ _ h
    have := congrArg List.length h
    simp only [List.length_replicate] at this
    have := Encodable.encode_injective this
    rw [Prod.mk.injEq] at this
    rw [this.1, this.2]
  · intro d _
    constructor <;>
    · intro hi
      have := List.mem_replicate.1 (List.IsInfix.subset hi (show '<' ∈ _ by simp))
      revert this; simp

/-- The text of `v·id + 2·cupcap` on two strands with a made-up picture. -/
example : summands ("<p style=\"x\">$(v)$<svg>A</svg><span style=\"padding: 0 0.3em\">$+$</span>$(2)$<svg>B</svg></p>").toList =
    ["$(v)$<svg>A</svg>".toList, "$(2)$<svg>B</svg>".toList] := by decide +kernel

end Show
end Peyl
