import Verif.Spec.Lr
import Verif.Proofs.FirstSpec
import Mathlib.Data.List.Forall2

/-! Closure and GOTO of LR(1) item sets. -/

namespace Verif
open Spec Grammar

/-! ## loops that may fail -/

theorem mapRes_ok {α β : Type} {f : α → Res β} : ∀ {l : List α} {r : List β},
    mapRes f l = .ok r → List.Forall₂ (fun a b => f a = .ok b) l r
  | [], r, h => by simp only [mapRes] at h; cases h; exact .nil
  | a :: l, r, h => by
    simp only [mapRes] at h
    cases ha : f a with
    | error e => simp [ha, bind, Except.bind] at h
    | ok b =>
      cases hl : mapRes f l with
      | error e => simp [ha, hl, bind, Except.bind] at h
      | ok bs =>
        simp only [ha, hl, bind, Except.bind, pure, Except.pure, Except.ok.injEq] at h
        subst h
        exact .cons ha (mapRes_ok hl)

theorem mapRes_of_forall {α β : Type} {f : α → Res β} : ∀ {l : List α},
    (∀ a ∈ l, ∃ b, f a = .ok b) → ∃ r, mapRes f l = .ok r
  | [], _ => ⟨[], rfl⟩
  | a :: l, h => by
    obtain ⟨b, hb⟩ := h a (by simp)
    obtain ⟨r, hr⟩ := mapRes_of_forall (l := l) fun x hx => h x (by simp [hx])
    exact ⟨b :: r, by simp [mapRes, hb, hr, bind, Except.bind, pure, Except.pure]⟩

theorem mapRes_error {α β : Type} {f : α → Res β} {e : Err} : ∀ {l : List α},
    mapRes f l = .error e → ∃ a ∈ l, f a = .error e
  | [], h => by simp [mapRes] at h
  | a :: l, h => by
    simp only [mapRes] at h
    cases ha : f a with
    | error e' =>
      simp only [ha, bind, Except.bind, Except.error.injEq] at h
      exact ⟨a, by simp, by rw [ha, h]⟩
    | ok b =>
      cases hl : mapRes f l with
      | error e' =>
        simp only [ha, hl, bind, Except.bind, Except.error.injEq] at h
        obtain ⟨x, hx, h'⟩ := mapRes_error hl
        exact ⟨x, by simp [hx], by rw [h', h]⟩
      | ok bs => simp [ha, hl, bind, Except.bind, pure, Except.pure] at h

theorem mapRes_mem {α β : Type} {f : α → Res β} {l : List α} {r : List β} (h : mapRes f l = .ok r) (b : β) :
    b ∈ r ↔ ∃ a ∈ l, f a = .ok b := by
  have := mapRes_ok h
  clear h
  induction this with
  | nil => simp
  | cons hf _ ih =>
    simp only [List.mem_cons, ih, exists_eq_or_imp, hf, Except.ok.injEq]
    constructor
    · rintro (rfl | h)
      · exact .inl rfl
      · exact .inr h
    · rintro (rfl | h)
      · exact .inl rfl
      · exact .inr h

theorem mapRes_each {α β : Type} {f : α → Res β} {l : List α} {r : List β} (h : mapRes f l = .ok r)
    {a : α} (ha : a ∈ l) : ∃ b ∈ r, f a = .ok b := by
  have := mapRes_ok h
  clear h
  induction this with
  | nil => simp at ha
  | @cons a' b' l' r' hf _ ih =>
    rcases List.mem_cons.mp ha with rfl | ha
    · exact ⟨b', by simp, hf⟩
    · obtain ⟨b, hb, h⟩ := ih ha
      exact ⟨b, by simp [hb], h⟩

theorem flatMapRes_mem {α β : Type} {f : α → Res (List β)} {l : List α} {r : List β}
    (h : flatMapRes f l = .ok r) (b : β) : b ∈ r ↔ ∃ a ∈ l, ∃ bs, f a = .ok bs ∧ b ∈ bs := by
  unfold flatMapRes at h
  cases hm : mapRes f l with
  | error e => simp [hm, bind, Except.bind] at h
  | ok rs =>
    simp only [hm, bind, Except.bind, pure, Except.pure, Except.ok.injEq] at h
    subst h
    simp only [List.mem_flatten, mapRes_mem hm]
    constructor
    · rintro ⟨bs, ⟨a, ha, hf⟩, hb⟩; exact ⟨a, ha, bs, hf, hb⟩
    · rintro ⟨a, ha, bs, hf, hb⟩; exact ⟨bs, ⟨a, ha, hf⟩, hb⟩

theorem flatMapRes_each {α β : Type} {f : α → Res (List β)} {l : List α} {r : List β}
    (h : flatMapRes f l = .ok r) {a : α} (ha : a ∈ l) : ∃ bs, f a = .ok bs := by
  unfold flatMapRes at h
  cases hm : mapRes f l with
  | error e => simp [hm, bind, Except.bind] at h
  | ok rs =>
    obtain ⟨b, _, hb⟩ := mapRes_each hm ha
    exact ⟨b, hb⟩

theorem flatMapRes_of_forall {α β : Type} {f : α → Res (List β)} {l : List α}
    (h : ∀ a ∈ l, ∃ b, f a = .ok b) : ∃ r, flatMapRes f l = .ok r := by
  obtain ⟨r, hr⟩ := mapRes_of_forall h
  exact ⟨r.flatten, by simp [flatMapRes, hr, bind, Except.bind, pure, Except.pure]⟩

theorem flatMapRes_error {α β : Type} {f : α → Res (List β)} {l : List α} {e : Err}
    (h : flatMapRes f l = .error e) : ∃ a ∈ l, f a = .error e := by
  unfold flatMapRes at h
  cases hm : mapRes f l with
  | error e' =>
    simp only [hm, bind, Except.bind, Except.error.injEq] at h
    subst h
    exact mapRes_error hm
  | ok rs => simp [hm, bind, Except.bind, pure, Except.pure] at h

/-! ## item sets as relations -/

namespace ItemSet

theorem _root_.Verif.Spec.WFSet.msorted {s : ItemSet} (h : WFSet s) : MSorted s := h.keys

theorem has_iff {s : ItemSet} (h : WFSet s) {it : Item} {la : Nat} :
    Has s it la ↔ ∃ las, mget it s = some las ∧ la ∈ las := by
  unfold Has
  simp only [mget_eq_some_iff h.msorted]

theorem wf_ext {s t : ItemSet} (hs : WFSet s) (ht : WFSet t)
    (h : ∀ it la, Has s it la ↔ Has t it la) : s = t := by
  refine msorted_ext hs.msorted ht.msorted fun k => ?_
  have hk := h k
  simp only [has_iff hs, has_iff ht] at hk
  cases h1 : mget k s with
  | none =>
    cases h2 : mget k t with
    | none => rfl
    | some l =>
      obtain ⟨hne, _⟩ := ht.las k l (mget_mem h2)
      obtain ⟨a, ha⟩ := List.exists_mem_of_ne_nil l hne
      obtain ⟨las, h3, _⟩ := (hk a).mpr ⟨l, h2, ha⟩
      rw [h1] at h3; cases h3
  | some l =>
    obtain ⟨hne, hsl⟩ := hs.las k l (mget_mem h1)
    cases h2 : mget k t with
    | none =>
      obtain ⟨a, ha⟩ := List.exists_mem_of_ne_nil l hne
      obtain ⟨las, h3, _⟩ := (hk a).mp ⟨l, h1, ha⟩
      rw [h2] at h3; cases h3
    | some l' =>
      obtain ⟨_, hsl'⟩ := ht.las k l' (mget_mem h2)
      congr 1
      refine sorted_ext hsl hsl' fun x => ?_
      have := hk x
      simpa [h1, h2] using this

theorem wf_nil : WFSet [] := ⟨by simp [Sorted], by simp⟩

theorem wf_minsert {s : ItemSet} (h : WFSet s) {it : Item} {l : List Nat} (hl : l ≠ [] ∧ Sorted l) :
    WFSet (minsert it l s) := by
  refine ⟨msorted_minsert h.msorted, fun it' l' hm => ?_⟩
  have := (mget_eq_some_iff (msorted_minsert h.msorted)).mpr hm
  rw [mget_minsert] at this
  split at this
  · cases this; exact hl
  · exact h.las it' l' (mget_mem this)

theorem has_minsert {s : ItemSet} (h : WFSet s) {it : Item} {l : List Nat} (hl : l ≠ [] ∧ Sorted l)
    (it' : Item) (la : Nat) :
    Has (minsert it l s) it' la ↔ if it' = it then la ∈ l else Has s it' la := by
  rw [has_iff (wf_minsert h hl), has_iff h, mget_minsert]
  split <;> simp

/-- Inserting one lookahead. -/
theorem insertOne {s : ItemSet} (h : WFSet s) (it : Item) (la : Nat) :
    let s' := match mget it s with
      | none => minsert it [la] s
      | some las => minsert it (oinsert la las) s
    WFSet s' ∧ ∀ it' la', Has s' it' la' ↔ Has s it' la' ∨ (it' = it ∧ la' = la) := by
  cases hm : mget it s with
  | none =>
    have hl : [la] ≠ [] ∧ Sorted [la] := ⟨by simp, by simp [Sorted]⟩
    refine ⟨wf_minsert h hl, fun it' la' => ?_⟩
    rw [has_minsert h hl]
    split
    · rename_i he; subst he
      simp only [List.mem_singleton, true_and]
      have : ¬ Has s it' la' := by rw [has_iff h, hm]; simp
      simp [this]
    · rename_i he; simp [he]
  | some las =>
    obtain ⟨hne, hsl⟩ := h.las it las (mget_mem hm)
    have hl : oinsert la las ≠ [] ∧ Sorted (oinsert la las) :=
      ⟨List.ne_nil_of_mem (mem_oinsert.mpr (.inl rfl)), sorted_oinsert hsl⟩
    refine ⟨wf_minsert h hl, fun it' la' => ?_⟩
    rw [has_minsert h hl]
    split
    · rename_i he; subst he
      rw [mem_oinsert, has_iff h, hm]
      simp [or_comm]
    · rename_i he; simp [he]

theorem addOne_spec {s : ItemSet} (h : WFSet s) (b : Bool) (x : Item × Nat) :
    WFSet (addOne (s, b) x).1 ∧
    (∀ it la, Has (addOne (s, b) x).1 it la ↔ Has s it la ∨ (it, la) = x) ∧
    (Has s x.1 x.2 → addOne (s, b) x = (s, b)) ∧
    (¬ Has s x.1 x.2 → (addOne (s, b) x).2 = true) := by
  have hins := insertOne h x.1 x.2
  have hx : ∀ it la, ((it, la) = x ↔ it = x.1 ∧ la = x.2) := by
    intro it la; cases x; simp
  unfold addOne
  cases hm : mget x.1 s with
  | none =>
    simp only [hm] at hins ⊢
    refine ⟨hins.1, fun it la => (hins.2 it la).trans (by rw [hx]), ?_, fun _ => trivial⟩
    intro hh
    rw [has_iff h, hm] at hh; simp at hh
  | some las =>
    simp only [hm] at hins ⊢
    by_cases hl : x.2 ∈ las
    · have hhas : Has s x.1 x.2 := (has_iff h).mpr ⟨las, hm, hl⟩
      simp only [hl, if_true]
      refine ⟨h, fun it la => ?_, fun _ => trivial, fun hn => absurd hhas hn⟩
      constructor
      · exact .inl
      · rintro (hh | he)
        · exact hh
        · obtain ⟨rfl, rfl⟩ := (hx it la).mp he; exact hhas
    · simp only [hl, if_false]
      refine ⟨hins.1, fun it la => (hins.2 it la).trans (by rw [hx]), ?_, fun _ => trivial⟩
      intro hh
      rw [has_iff h, hm] at hh
      simp only [Option.some.injEq, exists_eq_left'] at hh
      exact absurd hh hl

theorem addFold_spec : ∀ (adds : List (Item × Nat)) (s : ItemSet) (b : Bool), WFSet s →
    WFSet (adds.foldl addOne (s, b)).1 ∧
    (∀ it la, Has (adds.foldl addOne (s, b)).1 it la ↔ Has s it la ∨ (it, la) ∈ adds) ∧
    ((adds.foldl addOne (s, b)).2 = false → b = false ∧ (adds.foldl addOne (s, b)).1 = s ∧
      ∀ x ∈ adds, Has s x.1 x.2) ∧
    ((adds.foldl addOne (s, b)).2 = true → b = true ∨ ∃ x ∈ adds, ¬ Has s x.1 x.2)
  | [], s, b, h => by simp [h]
  | x :: adds, s, b, h => by
    obtain ⟨h1, h2, h3, h4⟩ := addOne_spec h b x
    obtain ⟨k1, k2, k3, k4⟩ := addFold_spec adds (addOne (s, b) x).1 (addOne (s, b) x).2 h1
    simp only [List.foldl_cons]
    refine ⟨k1, fun it la => ?_, fun hf => ?_, fun ht => ?_⟩
    · rw [k2, h2, List.mem_cons, or_assoc]
    · obtain ⟨g1, g2, g3⟩ := k3 hf
      have hx : Has s x.1 x.2 := by
        by_contra hno; rw [h4 hno] at g1; cases g1
      have he := h3 hx
      rw [he] at g1 g2 g3 ⊢
      refine ⟨g1, g2, fun y hy => ?_⟩
      rcases List.mem_cons.mp hy with rfl | hy
      · exact hx
      · exact g3 y hy
    · by_cases hx : Has s x.1 x.2
      · have he := h3 hx
        rw [he] at k4 ht
        rcases k4 ht with h | ⟨y, hy, hny⟩
        · exact .inl h
        · exact .inr ⟨y, by simp [hy], hny⟩
      · exact .inr ⟨x, by simp, hx⟩

/-! ## the closure rule -/

variable {g : Grammar}

theorem dotName_iff (h : GOk g) {it : Item} {B : Str} :
    dotName g it = some B ↔ ∃ p, g.prods[it.1]? = some p ∧ p.inputs[it.2]? = some (.nonTerm B) := by
  unfold dotName dotToken
  constructor
  · intro hd
    cases hp : g.prods[it.1]? with
    | none => simp [prodAt, List.getD, hp] at hd
    | some p =>
      rw [h.prodAt_of hp] at hd
      cases hi : p.inputs[it.2]? with
      | none => simp [hi] at hd
      | some X =>
        simp only [hi, Option.bind_some] at hd
        rw [asNonTerminal_some hd] at hi
        exact ⟨p, rfl, hi⟩
  · rintro ⟨p, hp, hi⟩
    rw [h.prodAt_of hp, hi]; rfl

theorem dotToken_iff (h : GOk g) {it : Item} {X : Sym} :
    dotToken g it = some X ↔ ∃ p, g.prods[it.1]? = some p ∧ p.inputs[it.2]? = some X := by
  unfold dotToken
  constructor
  · intro hd
    cases hp : g.prods[it.1]? with
    | none => simp [prodAt, List.getD, hp] at hd
    | some p =>
      rw [h.prodAt_of hp] at hd
      exact ⟨p, rfl, hd⟩
  · rintro ⟨p, hp, hi⟩
    rw [h.prodAt_of hp, hi]

theorem tok_ne_eps (h : GOk g) {t : Sym} (ht : t ∈ g.tokens) : t ≠ .epsilon := by
  rintro rfl
  rcases (h.tokMem _).mp ht with he | ⟨p, hp, hs⟩
  · cases he
  · exact h.noEps p hp hs

theorem beta_ne_eps (h : GOk g) {it : Item} {t : Sym} (ht : t ∈ g.tokens) :
    Sym.epsilon ∉ beta g it ++ [t] := by
  intro hm
  rcases List.mem_append.mp hm with hm | hm
  · unfold beta at hm
    have hm := List.mem_of_mem_drop hm
    cases hp : g.prods[it.1]? with
    | none => simp [prodAt, List.getD, hp] at hm
    | some p =>
      rw [h.prodAt_of hp] at hm
      exact h.noEps p (List.mem_of_getElem? hp) hm
  · simp only [List.mem_singleton] at hm
    exact tok_ne_eps h ht hm.symm

theorem lead_tok (h : GOk g) {X t : Sym} (hl : Lead (Rule g.prods) X t) (hX : X ∈ g.tokens) : t ∈ g.tokens := by
  induction hl with
  | term => exact hX
  | nt hR _ ih =>
    obtain ⟨p, hp, _, he⟩ := hR
    refine ih ?_
    rw [h.tokMem]
    exact .inr ⟨p, hp, by rw [he]; simp⟩

theorem beta_tok (h : GOk g) {it : Item} {t : Sym} (ht : t ∈ g.tokens) :
    ∀ X ∈ beta g it ++ [t], X ∈ g.tokens := by
  intro X hm
  rcases List.mem_append.mp hm with hm | hm
  · unfold beta at hm
    have hm := List.mem_of_mem_drop hm
    cases hp : g.prods[it.1]? with
    | none => simp [prodAt, List.getD, hp] at hm
    | some p =>
      rw [h.prodAt_of hp] at hm
      exact (h.tokMem _).mpr (.inr ⟨p, List.mem_of_getElem? hp, hm⟩)
  · simp only [List.mem_singleton] at hm
    subst hm; exact ht

/-- The symbol after the next one, or the lookahead. -/
def nextSym (g : Grammar) (it : Item) (t : Sym) : Sym := (beta g it ++ [t]).head (by simp)

theorem beta_cons (g : Grammar) (it : Item) (t : Sym) : ∃ rest, beta g it ++ [t] = nextSym g it t :: rest :=
  ⟨(beta g it ++ [t]).tail, by simp [nextSym]⟩

theorem addsFor_spec (h : GOk g) {d : Nat} {it : Item} {p la : Nat} :
    (∀ adds, addsFor g d it p la = .ok adds → ∃ t, g.tokens[la]? = some t ∧
      ∀ x : Item × Nat, x ∈ adds ↔ ∃ b tb, x = ((p, 0), b) ∧ g.tokens[b]? = some tb ∧
        Starts (Rule g.prods) (beta g it ++ [t]) tb) ∧
    (∀ t, g.tokens[la]? = some t → OkAt g d (nextSym g it t) → ∃ adds, addsFor g d it p la = .ok adds) ∧
    (∀ e, addsFor g d it p la = .error e → e = .undefinedToken ∧ g.tokens[la]? = none ∨
      e = .stackOverflow ∨ e = .undefinedNonTerminal) := by
  unfold addsFor getToken
  cases ht : g.tokens[la]? with
  | none => simp
  | some t =>
    have htm := List.mem_of_getElem? ht
    obtain ⟨rest, hrest⟩ := beta_cons g it t
    have hX : nextSym g it t ≠ .epsilon := by
      intro he
      exact beta_ne_eps h htm (it := it) (by rw [hrest, he]; simp)
    have hXt : nextSym g it t ∈ g.tokens := beta_tok h htm (it := it) _ (by rw [hrest]; simp)
    obtain ⟨f1, f2⟩ := first_spec h d (nextSym g it t) rest hX
    have hidx : ∀ fs : List Sym, (∀ x ∈ fs, x ∈ g.tokens) →
        ∃ r, mapRes (fun s => match g.getTokenIdx s with
          | none => .error .undefinedToken
          | some i => .ok (((p, 0), i) : Item × Nat)) fs = .ok r := by
      intro fs hfs
      refine mapRes_of_forall fun s hs => ?_
      obtain ⟨i, hi⟩ := h.tokIdx_mem (hfs s hs)
      exact ⟨((p, 0), i), by simp [hi]⟩
    by_cases hok : OkAt g d (nextSym g it t)
    · obtain ⟨fs, k1, _, k3⟩ := f1 hok
      obtain ⟨r, hr⟩ := hidx fs fun x hx => lead_tok h ((k3 x).mp hx) hXt
      have hval : (do
          let fs ← g.first d (beta g it ++ [t])
          mapRes (fun s => match g.getTokenIdx s with
            | none => .error .undefinedToken
            | some i => .ok (((p, 0), i) : Item × Nat)) fs) = .ok r := by
        rw [hrest, k1]; exact hr
      refine ⟨?_, fun _ _ _ => ⟨r, hval⟩, fun e he => ?_⟩
      · intro adds hadds
        have : adds = r := by
          have := hadds.symm.trans hval
          cases this; rfl
        subst this
        refine ⟨t, rfl, fun x => ?_⟩
        rw [mapRes_mem hr, hrest]
        simp only [starts_iff h.not_nil, ← k3]
        constructor
        · rintro ⟨s, hs, he⟩
          cases hi : g.getTokenIdx s with
          | none => simp [hi] at he
          | some i =>
            simp only [hi, Except.ok.injEq] at he
            exact ⟨i, s, he.symm, h.tokIdx.mp hi, hs⟩
        · rintro ⟨b, tb, rfl, hb, hs⟩
          exact ⟨tb, hs, by simp [h.tokIdx.mpr hb]⟩
      · have := he.symm.trans hval
        cases this
    · have herr : ∀ e', g.first d (nextSym g it t :: rest) = .error e' →
          (do
          let fs ← g.first d (beta g it ++ [t])
          mapRes (fun s => match g.getTokenIdx s with
            | none => .error .undefinedToken
            | some i => .ok (((p, 0), i) : Item × Nat)) fs) = .error e' := by
        intro e' he'
        rw [hrest, he']; rfl
      rcases f2 hok with k | ⟨k, _⟩
      all_goals
        refine ⟨fun adds hadds => ?_, fun t' ht' hok' => ?_, fun e he => ?_⟩
        · have := hadds.symm.trans (herr _ k); cases this
        · cases ht'; exact absurd hok' hok
        · have := he.symm.trans (herr _ k); cases this; simp

theorem closureAdds_mem (h : GOk g) {d : Nat} {set : ItemSet} {adds : List (Item × Nat)}
    (ha : closureAdds g d set = .ok adds) (x : Item × Nat) :
    x ∈ adds ↔ ∃ it la q b, Has set it la ∧ Asks g it la q b ∧ x = ((q, 0), b) := by
  unfold closureAdds at ha
  rw [flatMapRes_mem ha]
  constructor
  · rintro ⟨⟨it, las⟩, hm, bs, hbs, hx⟩
    cases hd : dotName g it with
    | none => simp only [hd] at hbs; cases hbs; simp at hx
    | some B =>
      obtain ⟨p, hp, hi⟩ := (dotName_iff h).mp hd
      simp only [hd] at hbs
      cases hl : g.productionIter B with
      | error e => simp [hl, bind, Except.bind] at hbs
      | ok l =>
        simp only [hl, bind, Except.bind] at hbs
        obtain ⟨q, hq, cs, hcs, hx⟩ := (flatMapRes_mem hbs x).mp hx
        obtain ⟨la, hla, ds, hds, hx⟩ := (flatMapRes_mem hcs x).mp hx
        obtain ⟨t, ht, hiff⟩ := (addsFor_spec h).1 ds hds
        obtain ⟨b, tb, rfl, hb, hst⟩ := (hiff x).mp hx
        obtain ⟨p', hp', hn⟩ := ((h.iter_ok hl).2.2 q).mp hq
        refine ⟨it, la, q, b, ⟨las, hm, hla⟩, ⟨p, B, p', t, tb, hp, hi, hp', hn, ht, ?_, hb⟩, rfl⟩
        simpa [beta, h.prodAt_of hp] using hst
  · rintro ⟨it, la, q, b, ⟨las, hm, hla⟩, ⟨p, B, p', t, tb, hp, hi, hp', hn, ht, hst, hb⟩, rfl⟩
    refine ⟨(it, las), hm, ?_⟩
    obtain ⟨bs, hbs⟩ := flatMapRes_each ha hm
    refine ⟨bs, hbs, ?_⟩
    have hd : dotName g it = some B := (dotName_iff h).mpr ⟨p, hp, hi⟩
    simp only [hd] at hbs
    cases hl : g.productionIter B with
    | error e => simp [hl, bind, Except.bind] at hbs
    | ok l =>
      simp only [hl, bind, Except.bind] at hbs
      have hq : q ∈ l := ((h.iter_ok hl).2.2 q).mpr ⟨p', hp', hn⟩
      rw [flatMapRes_mem hbs]
      obtain ⟨cs, hcs⟩ := flatMapRes_each hbs hq
      refine ⟨q, hq, cs, hcs, ?_⟩
      rw [flatMapRes_mem hcs]
      obtain ⟨ds, hds⟩ := flatMapRes_each hcs hla
      refine ⟨la, hla, ds, hds, ?_⟩
      obtain ⟨t', ht', hiff⟩ := (addsFor_spec h).1 ds hds
      rw [ht] at ht'; cases ht'
      rw [hiff]
      exact ⟨b, tb, rfl, hb, by simpa [beta, h.prodAt_of hp] using hst⟩

/-- When the loop body does not fail. -/
def Ready (g : Grammar) (d : Nat) (it : Item) (la : Nat) : Prop :=
  ∀ B, dotName g it = some B → (∃ p ∈ g.prods, p.name = B) ∧
    ∃ t, g.tokens[la]? = some t ∧ OkAt g d (nextSym g it t)

theorem closureAdds_ok (h : GOk g) {d : Nat} {set : ItemSet}
    (hr : ∀ it la, Has set it la → Ready g d it la) (hw : ∀ it l, (it, l) ∈ set → l ≠ []) :
    ∃ adds, closureAdds g d set = .ok adds := by
  unfold closureAdds
  refine flatMapRes_of_forall fun ⟨it, las⟩ hm => ?_
  cases hd : dotName g it with
  | none => exact ⟨[], by simp only⟩
  | some B =>
    obtain ⟨la0, hla0⟩ := List.exists_mem_of_ne_nil las (hw it las hm)
    obtain ⟨hdef, _⟩ := hr it la0 ⟨las, hm, hla0⟩ B hd
    obtain ⟨l, hl⟩ := h.iter_iff.mpr hdef
    simp only [hl, bind, Except.bind]
    refine flatMapRes_of_forall fun q _ => flatMapRes_of_forall fun la hla => ?_
    obtain ⟨_, t, ht, hok⟩ := hr it la ⟨las, hm, hla⟩ B hd
    exact (addsFor_spec h).2.1 t ht hok

theorem closureAdds_error (h : GOk g) {d : Nat} {set : ItemSet} {e : Err}
    (he : closureAdds g d set = .error e) :
    (e = .undefinedToken ∧ ∃ it la, Has set it la ∧ g.tokens[la]? = none) ∨
      e = .stackOverflow ∨ e = .undefinedNonTerminal := by
  unfold closureAdds at he
  obtain ⟨⟨it, las⟩, hm, he⟩ := flatMapRes_error he
  cases hd : dotName g it with
  | none => simp [hd] at he
  | some B =>
    simp only [hd] at he
    cases hl : g.productionIter B with
    | error e' =>
      simp only [hl, bind, Except.bind, Except.error.injEq] at he
      subst he
      unfold productionIter at hl
      cases hm : mget B g.nameMap <;> simp [hm] at hl
      rw [← hl]; simp
    | ok l =>
      simp only [hl, bind, Except.bind] at he
      obtain ⟨q, _, he⟩ := flatMapRes_error he
      obtain ⟨la, hla, he⟩ := flatMapRes_error he
      rcases (addsFor_spec h).2.2 e he with ⟨h, hn⟩ | h | h
      · exact .inl ⟨h, it, la, ⟨las, hm, hla⟩, hn⟩
      · exact .inr (.inl h)
      · exact .inr (.inr h)

open Classical in
/-- Pairs the closure loop can still add. -/
noncomputable def missing (g : Grammar) (s : ItemSet) : Nat :=
  ((List.range g.prods.length).flatMap fun q => (List.range g.tokens.length).map fun b => (q, b)).countP
    fun x => decide (¬ Has s (x.1, 0) x.2)

theorem missing_le (g : Grammar) (s : ItemSet) : missing g s ≤ g.prods.length * g.tokens.length := by
  unfold missing
  refine Nat.le_trans List.countP_le_length ?_
  rw [List.length_flatMap]
  simp

theorem missing_lt {s t : ItemSet} (hst : ∀ it la, Has s it la → Has t it la) {q b : Nat}
    (hq : q < g.prods.length) (hb : b < g.tokens.length) (h1 : ¬ Has s (q, 0) b) (h2 : Has t (q, 0) b) :
    missing g t < missing g s := by
  unfold missing
  refine countP_lt ?_ ⟨(q, b), ?_, ?_, ?_⟩
  · intro x _ hx
    simp only [decide_eq_true_eq] at hx ⊢
    exact fun h => hx (hst _ _ h)
  · simp only [List.mem_flatMap, List.mem_range, List.mem_map]
    exact ⟨q, hq, b, hb, rfl⟩
  · simpa using h2
  · simpa using h1

theorem asks_range {it : Item} {la q b : Nat} (h : Asks g it la q b) :
    q < g.prods.length ∧ b < g.tokens.length := by
  obtain ⟨p, B, p', t, tb, _, _, h1, _, _, _, h2⟩ := h
  exact ⟨(List.getElem?_eq_some_iff.mp h1).1, (List.getElem?_eq_some_iff.mp h2).1⟩

theorem clo_mono {I J : Item → Nat → Prop} (h : ∀ it la, I it la → Clo g J it la) {it : Item} {la : Nat}
    (hc : Clo g I it la) : Clo g J it la := by
  induction hc with
  | base hi => exact h _ _ hi
  | step _ ha ih => exact .step ih ha

theorem closureLoop_spec (h : GOk g) (d : Nat) : ∀ (fuel : Nat) (set : ItemSet), WFSet set →
    missing g set ≤ fuel →
    (∀ r, closureLoop g d fuel set = .ok r → WFSet r ∧ ∀ it la, Has r it la ↔ Clo g (Has set) it la) ∧
    (∀ e, closureLoop g d fuel set = .error e →
      (e = .undefinedToken ∧ ∃ it la, Clo g (Has set) it la ∧ g.tokens[la]? = none) ∨ e = .stackOverflow ∨ e = .undefinedNonTerminal) ∧
    ((∀ it la, Clo g (Has set) it la → Ready g d it la) → ∃ r, closureLoop g d fuel set = .ok r) := by
  intro fuel
  induction fuel with
  | zero =>
    intro set hw hm
    unfold closureLoop
    cases ha : closureAdds g d set with
    | error e =>
      refine ⟨by simp [bind, Except.bind], ?_, fun hr => ?_⟩
      · intro e' he'
        simp only [bind, Except.bind, Except.error.injEq] at he'
        rcases closureAdds_error h (he' ▸ ha) with ⟨h1, it, la, h2, h3⟩ | h1
        · exact .inl ⟨h1, it, la, .base h2, h3⟩
        · exact .inr h1
      · obtain ⟨adds, hadds⟩ := closureAdds_ok h (fun it la hh => hr it la (.base hh))
          fun it l hl => (hw.las it l hl).1
        rw [ha] at hadds; cases hadds
    | ok adds =>
      obtain ⟨k1, k2, k3, k4⟩ := addFold_spec adds set false hw
      have hflag : (adds.foldl addOne (set, false)).2 = false := by
        rw [Bool.eq_false_iff]
        intro ht
        rcases k4 ht with hc | ⟨x, hx, hnx⟩
        · cases hc
        · obtain ⟨it, la, q, b, _, hask, rfl⟩ := (closureAdds_mem h ha x).mp hx
          obtain ⟨r1, r2⟩ := asks_range hask
          have := missing_lt (s := set) (t := (adds.foldl addOne (set, false)).1)
            (fun it la hh => (k2 it la).mpr (.inl hh)) r1 r2 hnx ((k2 _ _).mpr (.inr hx))
          omega
      obtain ⟨_, k5, k6⟩ := k3 hflag
      have hval : (do
          let adds ← (Except.ok adds : Res (List (Item × Nat)))
          let (set', added) := adds.foldl addOne (set, false)
          if added then (Except.error Err.outOfFuel : Res ItemSet) else return set') = .ok set := by
        simp only [bind, Except.bind, hflag, k5, pure, Except.pure]; rfl
      refine ⟨?_, ?_, fun _ => ⟨set, hval⟩⟩
      · intro r hr
        have := hr.symm.trans hval
        cases this
        refine ⟨hw, fun it la => ⟨.base, fun hc => ?_⟩⟩
        induction hc with
        | base hi => exact hi
        | step _ hask ih =>
          exact k6 _ ((closureAdds_mem h ha _).mpr ⟨_, _, _, _, ih, hask, rfl⟩)
      · intro e he
        have := he.symm.trans hval
        cases this
  | succ fuel ih =>
    intro set hw hm
    unfold closureLoop
    cases ha : closureAdds g d set with
    | error e =>
      refine ⟨by simp [bind, Except.bind], ?_, fun hr => ?_⟩
      · intro e' he'
        simp only [bind, Except.bind, Except.error.injEq] at he'
        rcases closureAdds_error h (he' ▸ ha) with ⟨h1, it, la, h2, h3⟩ | h1
        · exact .inl ⟨h1, it, la, .base h2, h3⟩
        · exact .inr h1
      · obtain ⟨adds, hadds⟩ := closureAdds_ok h (fun it la hh => hr it la (.base hh))
          fun it l hl => (hw.las it l hl).1
        rw [ha] at hadds; cases hadds
    | ok adds =>
      obtain ⟨k1, k2, k3, k4⟩ := addFold_spec adds set false hw
      have hin : ∀ it la, Has (adds.foldl addOne (set, false)).1 it la → Clo g (Has set) it la := by
        intro it la hh
        rcases (k2 it la).mp hh with hh | hh
        · exact .base hh
        · obtain ⟨it', la', q, b, h1, h2, h3⟩ := (closureAdds_mem h ha _).mp hh
          cases h3
          exact .step (.base h1) h2
      cases hflag : (adds.foldl addOne (set, false)).2 with
      | false =>
        obtain ⟨_, k5, k6⟩ := k3 hflag
        have hval : (do
            let adds ← (Except.ok adds : Res (List (Item × Nat)))
            let (set', added) := adds.foldl addOne (set, false)
            if added then closureLoop g d fuel set' else return set') = .ok set := by
          simp only [bind, Except.bind, hflag, k5, pure, Except.pure]; rfl
        refine ⟨?_, ?_, fun _ => ⟨set, hval⟩⟩
        · intro r hr
          have := hr.symm.trans hval
          cases this
          refine ⟨hw, fun it la => ⟨.base, fun hc => ?_⟩⟩
          induction hc with
          | base hi => exact hi
          | step _ hask ih =>
            exact k6 _ ((closureAdds_mem h ha _).mpr ⟨_, _, _, _, ih, hask, rfl⟩)
        · intro e he
          have := he.symm.trans hval
          cases this
      | true =>
        have hval : (do
            let adds ← (Except.ok adds : Res (List (Item × Nat)))
            let (set', added) := adds.foldl addOne (set, false)
            if added then closureLoop g d fuel set' else return set') =
            closureLoop g d fuel (adds.foldl addOne (set, false)).1 := by
          simp only [bind, Except.bind, hflag]; rfl
        have hlt : missing g (adds.foldl addOne (set, false)).1 < missing g set := by
          rcases k4 hflag with hc | ⟨x, hx, hnx⟩
          · cases hc
          · obtain ⟨it, la, q, b, _, hask, rfl⟩ := (closureAdds_mem h ha x).mp hx
            obtain ⟨r1, r2⟩ := asks_range hask
            exact missing_lt (fun it la hh => (k2 it la).mpr (.inl hh)) r1 r2 hnx ((k2 _ _).mpr (.inr hx))
        obtain ⟨i1, i2, i3⟩ := ih _ k1 (by omega)
        refine ⟨fun r hr => ?_, fun e he => ?_, fun hr => ?_⟩
        · obtain ⟨j1, j2⟩ := i1 r (hval.symm.trans hr)
          refine ⟨j1, fun it la => (j2 it la).trans ⟨clo_mono hin, clo_mono fun it la hh =>
            .base ((k2 it la).mpr (.inl hh))⟩⟩
        · rcases i2 e (hval.symm.trans he) with ⟨h1, it, la, h2, h3⟩ | h1
          · exact .inl ⟨h1, it, la, clo_mono hin h2, h3⟩
          · exact .inr h1
        · obtain ⟨r, hr⟩ := i3 fun it la hc => hr it la (clo_mono hin hc)
          exact ⟨r, hval.trans hr⟩

theorem closure_spec (h : GOk g) (d : Nat) {set : ItemSet} (hw : WFSet set) :
    (∀ r, closure g d set = .ok r → WFSet r ∧ ∀ it la, Has r it la ↔ Clo g (Has set) it la) ∧
    (∀ e, closure g d set = .error e →
      (e = .undefinedToken ∧ ∃ it la, Clo g (Has set) it la ∧ g.tokens[la]? = none) ∨ e = .stackOverflow ∨ e = .undefinedNonTerminal) ∧
    ((∀ it la, Clo g (Has set) it la → Ready g d it la) → ∃ r, closure g d set = .ok r) :=
  closureLoop_spec h d _ set hw (missing_le g set)

/-! ## goto -/

theorem advance_spec (h : GOk g) (x : Sym) {set : ItemSet} :
    WFSet (advance g x set) ∧ ∀ it la, Has (advance g x set) it la ↔ Advanced g (Has set) x it la := by
  have inner : ∀ (las : List Nat) (it : Item) (j : ItemSet), WFSet j →
      WFSet (las.foldl (fun j la => match mget it j with
        | none => minsert it [la] j
        | some l => minsert it (oinsert la l) j) j) ∧
      ∀ it' la, Has (las.foldl (fun j la => match mget it j with
        | none => minsert it [la] j
        | some l => minsert it (oinsert la l) j) j) it' la ↔ Has j it' la ∨ (it' = it ∧ la ∈ las) := by
    intro las it
    induction las with
    | nil => intro j hj; simp [hj]
    | cons a las ih =>
      intro j hj
      obtain ⟨h1, h2⟩ := insertOne hj it a
      obtain ⟨h3, h4⟩ := ih _ h1
      refine ⟨h3, fun it' la => (h4 it' la).trans ?_⟩
      rw [h2, List.mem_cons]
      constructor
      · rintro ((hh | ⟨h5, h6⟩) | ⟨h5, h6⟩)
        · exact .inl hh
        · exact .inr ⟨h5, .inl h6⟩
        · exact .inr ⟨h5, .inr h6⟩
      · rintro (hh | ⟨h5, h6 | h6⟩)
        · exact .inl (.inl hh)
        · exact .inl (.inr ⟨h5, h6⟩)
        · exact .inr ⟨h5, h6⟩
  have outer : ∀ (es : List (Item × List Nat)) (j : ItemSet), WFSet j →
      WFSet (es.foldl (fun j e =>
        if dotToken g e.1 = some x then
          e.2.foldl (fun j la => match mget (incr e.1) j with
            | none => minsert (incr e.1) [la] j
            | some l => minsert (incr e.1) (oinsert la l) j) j
        else j) j) ∧
      ∀ it la, Has (es.foldl (fun j e =>
        if dotToken g e.1 = some x then
          e.2.foldl (fun j la => match mget (incr e.1) j with
            | none => minsert (incr e.1) [la] j
            | some l => minsert (incr e.1) (oinsert la l) j) j
        else j) j) it la ↔ Has j it la ∨
          ∃ e ∈ es, dotToken g e.1 = some x ∧ it = incr e.1 ∧ la ∈ e.2 := by
    intro es
    induction es with
    | nil => intro j hj; simp [hj]
    | cons e es ih =>
      intro j hj
      simp only [List.foldl_cons]
      by_cases hd : dotToken g e.1 = some x
      · obtain ⟨h1, h2⟩ := inner e.2 (incr e.1) j hj
        simp only [hd, if_true] at h1 h2 ⊢
        obtain ⟨h3, h4⟩ := ih _ h1
        refine ⟨h3, fun it la => (h4 it la).trans ?_⟩
        rw [h2]
        simp only [List.mem_cons, exists_eq_or_imp, hd, true_and, or_assoc]
      · simp only [hd, if_false]
        obtain ⟨h3, h4⟩ := ih _ hj
        refine ⟨h3, fun it la => (h4 it la).trans ?_⟩
        simp only [List.mem_cons, exists_eq_or_imp, hd, false_and, false_or]
  obtain ⟨h1, h2⟩ := outer set [] wf_nil
  refine ⟨h1, fun it la => (h2 it la).trans ?_⟩
  unfold Advanced
  constructor
  · rintro (⟨_, hm, _⟩ | ⟨⟨it0, las⟩, hm, hd, rfl, hla⟩)
    · simp at hm
    · obtain ⟨p, hp, hi⟩ := (dotToken_iff h).mp hd
      exact ⟨it0.2, p, rfl, ⟨las, hm, hla⟩, hp, hi⟩
  · rintro ⟨d, p, h3, ⟨las, hm, hla⟩, hp, hi⟩
    refine .inr ⟨((it.1, d), las), hm, (dotToken_iff h).mpr ⟨p, hp, hi⟩, ?_, hla⟩
    cases it; simp only at h3; simp [incr, h3]

theorem goto_spec (h : GOk g) (d : Nat) {set : ItemSet} (_hw : WFSet set) (x : Sym) :
    (∀ r, goto g d set x = .ok r → WFSet r ∧
      ∀ it la, Has r it la ↔ Clo g (Advanced g (Has set) x) it la) ∧
    (∀ e, goto g d set x = .error e →
      (e = .undefinedToken ∧ ∃ it la, Clo g (Advanced g (Has set) x) it la ∧ g.tokens[la]? = none) ∨ e = .stackOverflow ∨ e = .undefinedNonTerminal) ∧
    ((∀ it la, Clo g (Advanced g (Has set) x) it la → Ready g d it la) → ∃ r, goto g d set x = .ok r) := by
  obtain ⟨h1, h2⟩ := advance_spec h x (set := set)
  obtain ⟨c1, c2, c3⟩ := closure_spec h d h1
  have heq : Has (advance g x set) = Advanced g (Has set) x := by
    funext it la; exact propext (h2 it la)
  rw [heq] at c1 c2 c3
  exact ⟨c1, c2, c3⟩

end ItemSet
end Verif
