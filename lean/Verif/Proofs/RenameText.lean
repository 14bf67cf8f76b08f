import Verif.Proofs.RenameOk
import Verif.Proofs.TokensOk
import Verif.Spec.Pieces
import Verif.Spec.Program

/-! # Renaming: when tables can be built, and the tokens of the lexer -/

namespace Verif.Spec
open Verif

theorem astRule_iff {ps : List Ast.Prod} {A : Str} {r : List Sym} : AstRule ps A r ↔ (A, r) ∈ rulesOf ps := by
  simp only [rulesOf, AstRule, List.mem_flatMap, List.mem_map, Prod.mk.injEq]

namespace Renamed
variable {ρ : Str ≃ Str} {ps ps' : List Ast.Prod}

theorem symm (h : Renamed ρ ps ps') : Renamed ρ.symm ps' ps := by
  have := (List.Perm.map (fun r : Str × List Sym => (ρ.symm r.1, r.2.map (renameSym ρ.symm))) h).symm
  rw [List.map_map] at this
  refine .trans (.of_eq ?_) this
  conv => lhs; rw [← List.map_id (rulesOf ps)]
  congr 1; funext r
  show r = (ρ.symm (ρ r.1), (r.2.map (renameSym ρ)).map (renameSym ρ.symm))
  rw [renameSym_map_symm, Equiv.symm_apply_apply]

theorem rule (h : Renamed ρ ps ps') {A : Str} {r : List Sym} (hr : AstRule ps A r) :
    AstRule ps' (ρ A) (r.map (renameSym ρ)) :=
  astRule_iff.2 (h.mem_iff.2 (List.mem_map.2 ⟨_, astRule_iff.1 hr, rfl⟩))

theorem uses (h : Renamed ρ ps ps') {A B : Str} (hu : Uses (AstRule ps) A B) : Uses (AstRule ps') (ρ A) (ρ B) := by
  induction hu with
  | refl => exact .refl
  | tail _ hr hm ih => exact .tail ih (h.rule hr) (List.mem_map.2 ⟨_, hm, rfl⟩)

theorem leftCall (h : Renamed ρ ps ps') {A B : Str} (hu : LeftCall (AstRule ps) A B) : LeftCall (AstRule ps') (ρ A) (ρ B) := by
  obtain ⟨r, hr⟩ := hu
  exact ⟨r.map (renameSym ρ), h.rule hr⟩

theorem leftReach (h : Renamed ρ ps ps') {A B : Str} (hu : LeftReach (AstRule ps) A B) :
    LeftReach (AstRule ps') (ρ A) (ρ B) := by
  induction hu with
  | refl => exact .refl
  | tail _ hc ih => exact .tail ih (h.leftCall hc)

theorem leftRec (h : Renamed ρ ps ps') {A : Str} (hu : LeftRec (AstRule ps) A) : LeftRec (AstRule ps') (ρ A) := by
  obtain ⟨B, h1, h2⟩ := hu
  exact ⟨_, h.leftCall h1, h.leftReach h2⟩

theorem follows (h : Renamed ρ ps ps') {S C : Str} (hu : Follows (AstRule ps) S C) : Follows (AstRule ps') (ρ S) (ρ C) := by
  obtain ⟨A, l, B, r, h1, h2⟩ := hu
  refine ⟨ρ A, l.map (renameSym ρ), ρ B, r.map (renameSym ρ), h.uses h1, ?_⟩
  have := h.rule h2
  simpa [renameSym] using this

theorem buildable_mono (h : Renamed ρ ps ps') {S : Str} (hb : Buildable (AstRule ps) S) : Buildable (AstRule ps') (ρ S) where
  defined A hA := by
    have := h.symm.uses hA
    rw [Equiv.symm_apply_apply] at this
    obtain ⟨r, hr⟩ := hb.defined _ this
    have := h.rule hr
    rw [Equiv.apply_symm_apply] at this
    exact ⟨_, this⟩
  first A B hA hB hR := by
    have := h.symm.follows hA
    rw [Equiv.symm_apply_apply] at this
    exact hb.first _ _ this (h.symm.leftReach hB) (h.symm.leftRec hR)

theorem buildable (h : Renamed ρ ps ps') (S : Str) : Buildable (AstRule ps') (ρ S) ↔ Buildable (AstRule ps) S :=
  ⟨fun hb => by have := h.symm.buildable_mono hb; rwa [Equiv.symm_apply_apply] at this, h.buildable_mono⟩

theorem hasRegex_iff {ps : List Ast.Prod} {r : Str} : HasRegex ps r ↔ ∃ A l, (A, l) ∈ rulesOf ps ∧ Sym.regex r ∈ l := by
  simp only [rulesOf, HasRegex, List.mem_flatMap, List.mem_map, Prod.mk.injEq]
  constructor
  · rintro ⟨p, hp, b, hb, s, hs, h⟩
    exact ⟨_, _, ⟨p, hp, b, hb, rfl, rfl⟩, List.mem_map.2 ⟨s, hs, h⟩⟩
  · rintro ⟨A, l, ⟨p, hp, b, hb, rfl, rfl⟩, h⟩
    obtain ⟨s, hs, h⟩ := List.mem_map.1 h
    exact ⟨p, hp, b, hb, s, hs, h⟩

theorem hasRegex_mono (h : Renamed ρ ps ps') {r : Str} (hr : HasRegex ps r) : HasRegex ps' r := by
  obtain ⟨A, l, h1, h2⟩ := hasRegex_iff.1 hr
  exact hasRegex_iff.2 ⟨_, _, h.mem_iff.2 (List.mem_map.2 ⟨_, h1, rfl⟩), List.mem_map.2 ⟨_, h2, rfl⟩⟩

theorem hasRegex (h : Renamed ρ ps ps') (r : Str) : HasRegex ps' r ↔ HasRegex ps r := ⟨h.symm.hasRegex_mono, h.hasRegex_mono⟩

theorem regexesOk (h : Renamed ρ ps ps') (rx : Str → Option Hir) : RegexesOk rx ps' ↔ RegexesOk rx ps :=
  forall_congr' fun r => by rw [h.hasRegex]

end Renamed

/-- The terminals of a list of symbols. -/
def termsOf (ss : List Sym) : List Sym := ss.filter fun s => match s with | .strLit _ => true | .regex _ => true | _ => false

theorem mem_termsOf {ss : List Sym} {s : Sym} : s ∈ termsOf ss ↔ s ∈ ss ∧ IsTerm s := by
  unfold termsOf
  rw [List.mem_filter]
  cases s <;> simp [IsTerm]

/-- The tokens of the lexer, terminal by terminal. -/
theorem tokenDefs_terms {rx : Str → Option Hir} (T : List Sym) : ∀ {i : Nat} {ss : List Sym} {ds : List (TokenDef × Hir)},
    Grammar.tokenDefs rx i ss = .ok ds → (∀ k, T[i + k]? = ss[k]?) →
    List.Forall₂ (fun s d => ∃ k, T[k]? = some s ∧ Grammar.tokenDefWithRegex rx k s = .ok (some d)) (termsOf ss) ds
  | i, [], ds, h, _ => by
    simp only [Grammar.tokenDefs, Except.ok.injEq] at h
    subst h; exact .nil
  | i, s :: ss, ds, h, hT => by
    simp only [Grammar.tokenDefs] at h
    cases h1 : Grammar.tokenDefWithRegex rx i s with
    | error e => simp [h1, bind, Except.bind] at h
    | ok d =>
      cases h2 : Grammar.tokenDefs rx (i + 1) ss with
      | error e => simp [h1, h2, bind, Except.bind] at h
      | ok ds' =>
        have ih := tokenDefs_terms T h2 fun k => by
          have := hT (k + 1)
          rw [List.getElem?_cons_succ] at this
          rw [← this]; congr 1; omega
        have h0 : T[i]? = some s := by simpa using hT 0
        simp only [h1, h2, bind, Except.bind, pure, Except.pure] at h
        cases s with
        | strLit t =>
          have h1' := h1
          simp only [Grammar.tokenDefWithRegex, Except.ok.injEq] at h1'
          subst h1'
          simp only [Except.ok.injEq] at h
          subst h
          exact .cons ⟨i, h0, h1⟩ ih
        | regex t =>
          have h1' := h1
          simp only [Grammar.tokenDefWithRegex] at h1'
          cases hr : rx t with
          | none => simp [hr] at h1'
          | some x =>
            simp only [hr, Except.ok.injEq] at h1'
            subst h1'
            simp only [Except.ok.injEq] at h
            subst h
            exact .cons ⟨i, h0, h1⟩ ih
        | nonTerm t | epsilon | eof =>
          simp only [Grammar.tokenDefWithRegex, Except.ok.injEq] at h1
          subst h1
          simp only [Except.ok.injEq] at h
          subst h
          exact ih

/-- Equal but for the number of the token. -/
def SameDef (d d' : TokenDef × Hir) : Prop := d.1.name = d'.1.name ∧ d.1.withVal = d'.1.withVal ∧ d.2 = d'.2

theorem same_defs {rx : Str → Option Hir} {g g' : Grammar} {ds ds' : List (TokenDef × Hir)}
    (h : Grammar.tokenDefs rx 0 g.tokens = .ok ds) (h' : Grammar.tokenDefs rx 0 g'.tokens = .ok ds')
    (ht : termsOf g.tokens = termsOf g'.tokens) :
    List.Forall₂ (fun d d' => SameDef d d' ∧ ∃ k k' s, d.1.tokenIdx = some k ∧ d'.1.tokenIdx = some k' ∧
      g.tokens[k]? = some s ∧ g'.tokens[k']? = some s) ds ds' := by
  have h1 := tokenDefs_terms g.tokens h (by simp)
  have h2 := tokenDefs_terms g'.tokens h' (by simp)
  rw [← ht] at h2
  generalize termsOf g.tokens = ts at h1 h2
  clear h h' ht
  induction h1 generalizing ds' with
  | nil => cases h2; exact .nil
  | @cons s d ts ds hd _ ih =>
    cases h2 with
    | cons hd' h2 =>
      refine .cons ?_ (ih h2)
      obtain ⟨k, a1, a2⟩ := hd
      obtain ⟨k', b1, b2⟩ := hd'
      cases s with
      | strLit t =>
        simp only [Grammar.tokenDefWithRegex, Except.ok.injEq, Option.some.injEq] at a2 b2
        subst a2; subst b2
        exact ⟨⟨rfl, rfl, rfl⟩, k, k', _, rfl, rfl, a1, b1⟩
      | regex t =>
        simp only [Grammar.tokenDefWithRegex] at a2 b2
        cases hr : rx t with
        | none => simp [hr] at a2
        | some x =>
          simp only [hr, Except.ok.injEq, Option.some.injEq] at a2 b2
          subst a2; subst b2
          exact ⟨⟨rfl, rfl, rfl⟩, k, k', _, rfl, rfl, a1, b1⟩
      | nonTerm t => simp [Grammar.tokenDefWithRegex] at a2
      | epsilon => simp [Grammar.tokenDefWithRegex] at a2
      | eof => simp [Grammar.tokenDefWithRegex] at a2

theorem pToken_congr {al : List Match} {ds ds' : List (TokenDef × Hir)} (h : ds.map Prod.snd = ds'.map Prod.snd) :
    PToken al ds = PToken al ds' := by
  have key : ∀ (ds : List (TokenDef × Hir)) w i, PToken al ds w i ↔ ∃ as, Reads al (ds.map Prod.snd) w as ∧
      (∃ x, (ds.map Prod.snd)[i]? = some x ∧ PMatches x as) ∧ ∀ j x, j < i → (ds.map Prod.snd)[j]? = some x → ¬ PMatches x as := by
    intro ds w i
    unfold PToken
    refine exists_congr fun as => and_congr_right fun _ => and_congr ?_ ?_
    · simp only [List.getElem?_map, Option.map_eq_some_iff]
      exact ⟨fun ⟨p, h1, h2⟩ => ⟨p.2, ⟨p, h1, rfl⟩, h2⟩, fun ⟨_, ⟨p, h1, rfl⟩, h2⟩ => ⟨p, h1, h2⟩⟩
    · simp only [List.getElem?_map, Option.map_eq_some_iff]
      exact ⟨fun h j x hj ⟨p, h1, h2⟩ => h2 ▸ h j p hj h1, fun h j p hj h1 => h j _ hj ⟨p, h1, rfl⟩⟩
  funext w i
  rw [propext (key ds w i), propext (key ds' w i), h]

theorem pViable_congr {al : List Match} {ds ds' : List (TokenDef × Hir)} (h : ds.map Prod.snd = ds'.map Prod.snd) :
    PViable al ds = PViable al ds' := by
  funext w
  unfold PViable
  rw [h]

theorem forall2_at {α β : Type} {R : α → β → Prop} {l : List α} {m : List β} (h : List.Forall₂ R l m) (i : Nat) :
    (l[i]? = none ∧ m[i]? = none) ∨ ∃ a b, l[i]? = some a ∧ m[i]? = some b ∧ R a b := by
  induction h generalizing i with
  | nil => exact .inl ⟨rfl, rfl⟩
  | cons hr _ ih =>
    cases i with
    | zero => exact .inr ⟨_, _, rfl, rfl, hr⟩
    | succ i => simpa using ih i

theorem carries_congr {ds ds' : List (TokenDef × Hir)} (h : List.Forall₂ SameDef ds ds') (input : List Char)
    (p : Nat × Nat × List Char) (t : Token) : Carries ds input p t ↔ Carries ds' input p t := by
  unfold Carries
  rcases forall2_at h p.2.1 with ⟨h1, h2⟩ | ⟨⟨d, x⟩, ⟨d', x'⟩, h1, h2, e1, e2, e3⟩
  · rw [h1, h2]
  · simp only at e1 e2 e3
    subst e3
    constructor
    · rintro ⟨a, b, h3, h4⟩
      rw [h1] at h3; cases h3
      exact ⟨d', _, h2, by rw [← e1, ← e2]; exact h4⟩
    · rintro ⟨a, b, h3, h4⟩
      rw [h2] at h3; cases h3
      exact ⟨d, _, h1, by rw [e1, e2]; exact h4⟩

namespace Iso
variable {σ θ : Nat ≃ Nat} {ρ : Str ≃ Str} {g g' : Grammar}

theorem mem_tokens (h : Iso σ θ ρ g g') {s : Sym} (hs : s ∈ g.tokens) : renameSym ρ s ∈ g'.tokens := by
  obtain ⟨k, hk⟩ := List.getElem?_of_mem hs
  exact List.mem_of_getElem? (h.tok_at hk)

theorem mem_terms_mono (h : Iso σ θ ρ g g') {s : Sym} (hs : s ∈ termsOf g.tokens) : s ∈ termsOf g'.tokens := by
  rw [mem_termsOf] at hs ⊢
  have := h.mem_tokens hs.1
  rw [renameSym_term _ hs.2] at this
  exact ⟨this, hs.2⟩

theorem distinct_mono (h : Iso σ θ ρ g g') (hd : DistinctSpellings g) : DistinctSpellings g' := by
  intro s hs t ht h1 h2 he
  have a := mem_termsOf.1 (h.symm.mem_terms_mono (mem_termsOf.2 ⟨hs, h1⟩))
  have b := mem_termsOf.1 (h.symm.mem_terms_mono (mem_termsOf.2 ⟨ht, h2⟩))
  exact hd s a.1 t b.1 h1 h2 he

theorem terms (h : Iso σ θ ρ g g') {X X' : List Sym} (h1 : g.tokens = .eof :: ofList X) (h2 : g'.tokens = .eof :: ofList X') :
    termsOf g.tokens = termsOf g'.tokens := by
  have e : ∀ X : List Sym, termsOf (.eof :: ofList X) = termsOf (ofList X) := fun X => rfl
  have hm : ∀ s, s ∈ termsOf g.tokens ↔ s ∈ termsOf g'.tokens := fun s => ⟨h.mem_terms_mono, h.symm.mem_terms_mono⟩
  rw [h1, h2, e, e] at hm ⊢
  refine sorted_ext ?_ ?_ hm
  · exact List.Pairwise.filter _ (sorted_ofList X)
  · exact List.Pairwise.filter _ (sorted_ofList X')

end Iso
end Verif.Spec
