import Verif.Proofs.LexReadOk

/-! # The tables described by the lexer file -/

namespace Verif.Spec
open Verif LexGen

theorem digits_inj {a b : Nat} (h : digits a = digits b) : a = b := by
  have h1 := scan_digits a []
  rw [h, scan_digits] at h1
  simpa using h1.symm

theorem digits_ne_nil (n : Nat) : digits n ≠ [] := by
  unfold digits
  split <;> simp

theorem declOf_eq {ds : List (Str × TsTy)} {n : Str} {t : TsTy} (hn : (ds.map Prod.fst).Nodup) (h : (n, t) ∈ ds) :
    declOf ds n = some t := by
  unfold declOf
  have : ds.filter (fun d => decide (d.1 = n)) = [(n, t)] := by
    induction ds with
    | nil => cases h
    | cons d ds ih =>
      rw [List.map_cons, List.nodup_cons] at hn
      rcases List.mem_cons.mp h with rfl | h
      · rw [List.filter_cons_of_pos (by simp)]
        congr 1
        rw [List.filter_eq_nil_iff]
        intro x hx
        simp only [decide_eq_true_eq]
        exact fun e => hn.1 (List.mem_map.mpr ⟨x, hx, e⟩)
      · rw [List.filter_cons_of_neg]
        · exact ih hn.2 h
        · simp only [decide_eq_true_eq]
          rintro rfl
          exact hn.1 (List.mem_map.mpr ⟨_, h, rfl⟩)
  rw [this]

theorem collect_map {α β γ : Type} {f : β → Option γ} {g : α → β} {k : α → γ} : ∀ {l : List α},
    (∀ a ∈ l, f (g a) = some (k a)) → collect f (l.map g) = some (l.map k)
  | [], _ => rfl
  | a :: l, h => by
    have ih := collect_map (f := f) (g := g) (k := k) (l := l) (fun b hb => h b (List.mem_cons_of_mem _ hb))
    simp only [List.map_cons, collect, h a List.mem_cons_self, Option.bind_some, ih, Option.map_some]

theorem collect_id {α β : Type} {f : β → Option α} {g : α → β} {l : List α} (h : ∀ a ∈ l, f (g a) = some a) :
    collect f (l.map g) = some l := by
  rw [collect_map (k := id) h, List.map_id]

theorem boolOf_text (b : Bool) : boolOf (.name (boolText b)) = some b := by cases b <;> rfl

theorem nodup_map_of_inj {α β : Type} {f : α → β} {l : List α} (hf : ∀ a b, f a = f b → a = b) (h : l.Nodup) : (l.map f).Nodup := by
  induction l with
  | nil => simp
  | cons a l ih =>
    rw [List.nodup_cons] at h
    rw [List.map_cons, List.nodup_cons]
    refine ⟨fun hm => ?_, ih h.2⟩
    obtain ⟨b, hb, e⟩ := List.mem_map.mp hm
    exact h.1 (hf _ _ e ▸ hb)

theorem prefix_ne {p q d : Str} (h : p.isPrefixOf q = false) : p ++ d ≠ q := by
  rintro rfl
  rw [List.isPrefixOf_iff_prefix.mpr (List.prefix_append p d)] at h
  cases h

theorem heads_ne {p q d e : Str} {a b : Char} (h1 : p.head? = some a) (h2 : q.head? = some b) (hab : a ≠ b) : p ++ d ≠ q ++ e := by
  intro he
  have := congrArg List.head? he
  rw [List.head?_append, List.head?_append, h1, h2] at this
  simp only [Option.some_or, Option.some.injEq] at this
  exact hab this

theorem lexDecls_nodup {t : Tables} (h : (t.tokens.map Prod.fst).Nodup) : ((lexDecls t).map Prod.fst).Nodup := by
  have e1 : (t.tokens.map defDecl).map Prod.fst = (t.tokens.map Prod.fst).map defName := by simp [defDecl]
  have e2 : (t.states.zipIdx.map stateDecl).map Prod.fst = (List.range t.states.length).map stateName := by
    rw [List.map_map, show (Prod.fst ∘ stateDecl) = (stateName ∘ Prod.snd) from rfl, ← List.map_map]
    congr 1
    simp [List.zipIdx_map_snd, List.range_eq_range']
  have n1 : ((t.tokens.map Prod.fst).map defName).Nodup :=
    nodup_map_of_inj (fun a b e => digits_inj (List.append_cancel_left e)) h
  have n2 : ((List.range t.states.length).map stateName).Nodup :=
    nodup_map_of_inj (fun a b e => digits_inj (List.append_cancel_left e)) List.nodup_range
  have d1 : ∀ i, defName i ≠ "Tokens".toList := fun i => prefix_ne (by decide +kernel)
  have d2 : ∀ i, defName i ≠ "States".toList := fun i => prefix_ne (by decide +kernel)
  have d3 : ∀ i, defName i ≠ "DFAtoNFA".toList := fun i => prefix_ne (by decide +kernel)
  have d4 : ∀ i j, defName i ≠ stateName j := fun i j =>
    heads_ne (a := 'T') (b := 'S') (by decide +kernel) (by decide +kernel) (by decide)
  have d5 : ∀ i, stateName i ≠ "Tokens".toList := fun i => prefix_ne (by decide +kernel)
  have d6 : ∀ i, stateName i ≠ "States".toList := fun i e => by
    have e' : "State".toList ++ digits i = "State".toList ++ "s".toList := e
    have h1 := List.append_cancel_left e'
    have h2 := digits_chars i 's' (by rw [h1]; exact List.mem_cons_self)
    revert h2; decide
  have d7 : ∀ i, stateName i ≠ "DFAtoNFA".toList := fun i => prefix_ne (by decide +kernel)
  unfold lexDecls
  simp only [List.map_append, e1, e2, List.map_cons, List.map_nil]
  simp only [List.nodup_append, List.mem_append, List.mem_map, List.mem_singleton, List.nodup_cons, List.not_mem_nil,
    not_false_eq_true, List.nodup_nil, and_true]
  refine ⟨⟨⟨⟨n1, trivial, ?_⟩, n2, ?_⟩, trivial, ?_⟩, trivial, ?_⟩
  · rintro a ⟨i, _, rfl⟩ b rfl; exact d1 i
  · rintro a (⟨i, _, rfl⟩ | rfl) b ⟨j, _, rfl⟩
    · exact d4 i j
    · exact (d5 j).symm
  · rintro a ((⟨i, _, rfl⟩ | rfl) | ⟨i, _, rfl⟩) b rfl
    · exact d2 i
    · decide
    · exact d6 i
  · rintro a (((⟨i, _, rfl⟩ | rfl) | ⟨i, _, rfl⟩) | rfl) b rfl
    · exact d3 i
    · decide
    · exact d7 i
    · decide

theorem zipIdx_getElem_mem {t : Tables} {i : Nat} (h : i < t.states.length) : (t.states[i], i) ∈ t.states.zipIdx := by
  rw [List.mem_zipIdx_iff_getElem?]
  simp [h]

theorem lexTables_eq {t : Tables} (h1 : (t.tokens.map Prod.fst).Nodup) (h2 : (t.dfaToNfa.map Prod.fst).Nodup) :
    lexTables (lexDecls t) = some t := by
  have hn := lexDecls_nodup h1
  have m1 : declOf (lexDecls t) "Tokens".toList = some (.obj (t.tokens.map tokenMember)) :=
    declOf_eq hn (by simp [lexDecls])
  have m2 : declOf (lexDecls t) "States".toList = some (.tuple ((List.range t.states.length).map fun i => .name (stateName i))) :=
    declOf_eq hn (by simp [lexDecls])
  have m3 : declOf (lexDecls t) "DFAtoNFA".toList = some (.obj (t.dfaToNfa.map dfaMember)) :=
    declOf_eq hn (by simp [lexDecls])
  have m4 : ∀ e ∈ t.tokens, declOf (lexDecls t) (defName e.1) = some (defDecl e).2 := fun e he =>
    declOf_eq hn (by unfold lexDecls; simp only [List.mem_append, List.mem_map]; exact .inl (.inl (.inl (.inl ⟨e, he, rfl⟩))))
  have m5 : ∀ i (hi : i < t.states.length), declOf (lexDecls t) (stateName i) = some (stateDecl (t.states[i], i)).2 := fun i hi =>
    declOf_eq hn (by unfold lexDecls; simp only [List.mem_append, List.mem_map]; exact .inl (.inl (.inr ⟨_, zipIdx_getElem_mem hi, rfl⟩)))
  have n1 : ((t.tokens.map tokenMember).map Prod.fst).Nodup := by
    rw [List.map_map, show Prod.fst ∘ tokenMember = TsKey.num ∘ Prod.fst from rfl, ← List.map_map]
    exact nodup_map_of_inj (fun a b e => by cases e; rfl) h1
  have n2 : ((t.dfaToNfa.map dfaMember).map Prod.fst).Nodup := by
    rw [List.map_map, show Prod.fst ∘ dfaMember = TsKey.num ∘ Prod.fst from rfl, ← List.map_map]
    exact nodup_map_of_inj (fun a b e => by cases e; rfl) h2
  have c1 : collect (lexToken (lexDecls t)) (t.tokens.map tokenMember) = some t.tokens := by
    refine collect_id fun e he => ?_
    obtain ⟨i, k, v⟩ := e
    have a1 : memberOf (defDecl (i, k, v)).2 "kind" = some (.str k) := rfl
    have a2 : memberOf (defDecl (i, k, v)).2 "hasValue" = some (.name (boolText v)) := rfl
    simp only [lexToken, tokenMember, keyNum, nameOf, m4 _ he, a1, a2, strOf, boolOf_text, bind, Option.bind, pure]
  have c2 : collect (lexState (lexDecls t)) ((List.range t.states.length).map fun i => .name (stateName i)) = some t.states := by
    have : t.states = (List.range t.states.length).map fun i => t.states[i]?.getD ⟨[], [], false⟩ := by
      apply List.ext_getElem?
      intro i
      simp only [List.getElem?_map]
      by_cases hi : i < t.states.length
      · simp [hi]
      · simp [hi]
    conv_rhs => rw [this]
    refine collect_map fun i hi => ?_
    have hi : i < t.states.length := by simpa using hi
    rw [List.getElem?_eq_getElem hi, Option.getD_some]
    have hm := m5 i hi
    generalize t.states[i] = s at hm ⊢
    obtain ⟨tos, ls, a⟩ := s
    have a1 : memberOf (stateDecl (⟨tos, ls, a⟩, i)).2 "to" = some (.tuple (tos.map .num)) := rfl
    have a2 : memberOf (stateDecl (⟨tos, ls, a⟩, i)).2 "labels" = some (.tuple (ls.map labelTy)) := rfl
    have a3 : memberOf (stateDecl (⟨tos, ls, a⟩, i)).2 "accepting" = some (.name (boolText a)) := rfl
    have b1 : collect numOf (tos.map .num) = some tos := collect_id fun _ _ => rfl
    have b2 : collect lexLabel (ls.map labelTy) = some ls := collect_id fun _ _ => rfl
    simp only [lexState, nameOf, hm, a1, a2, a3, elemsOf, b1, b2, boolOf_text, bind, Option.bind, pure]
  have c3 : collect numNums (t.dfaToNfa.map dfaMember) = some t.dfaToNfa := by
    refine collect_id fun e he => ?_
    obtain ⟨i, l⟩ := e
    have b1 : collect numOf (l.map .num) = some l := collect_id fun _ _ => rfl
    simp only [numNums, dfaMember, keyNum, elemsOf, b1, bind, Option.bind, pure]
  simp only [lexTables, m1, m2, m3, membersOf, n1, n2, elemsOf, c1, c2, c3, bind, Option.bind, pure, if_true]

end Verif.Spec
