import Verif.Proofs.NfaCompile
import Verif.Proofs.PiecePath

/-! The automaton of a regex on words of pieces: as NfaCompile. -/

namespace Verif
open Spec
namespace Nfa

/-- A fragment from `i` to `a` reading the language `L`, with ranges `K w` after having read `w`. -/
structure PFrag (n n' : Nfa) (i a : Nat) (es : List NEdge) (L : List Match → Prop)
    (K : List Match → Match → Prop) (V : Prop) : Prop where
  ext : Ext n.states.length n n' es
  dst : ∀ e ∈ es, e.dst = a ∨ (n.states.length ≤ e.dst ∧ e.dst < n'.states.length)
  entry : i = a ∨ (n.states.length ≤ i ∧ i < n'.states.length)
  lang : ∀ w, PPath es i w a ↔ L w
  next : ∀ w e m, e ∈ es → e.label = some m → PPath es i w e.src → K w m
  hit : ∀ w m, K w m → ∃ e ∈ es, e.label = some m ∧ PPath es i w e.src
  co : V → ∀ s, n.states.length ≤ s → s < n'.states.length → ∃ w, PPath es s w a

/-- Fragments for a list of alternatives, all ending in `f`. -/
structure PAltFrag (n n' : Nfa) (ts : List Nat) (f : Nat) (es : List NEdge)
    (L : List Match → Prop) (K : List Match → Match → Prop) (V : Prop) : Prop where
  ext : Ext n.states.length n n' es
  dst : ∀ e ∈ es, e.dst = f ∨ (n.states.length ≤ e.dst ∧ e.dst < n'.states.length)
  entry : ∀ t ∈ ts, t = f ∨ (n.states.length ≤ t ∧ t < n'.states.length)
  lang : ∀ w, (∃ t ∈ ts, PPath es t w f) ↔ L w
  next : ∀ t ∈ ts, ∀ w e m, e ∈ es → e.label = some m → PPath es t w e.src → K w m
  hit : ∀ w m, K w m → ∃ t ∈ ts, ∃ e ∈ es, e.label = some m ∧ PPath es t w e.src
  co : V → ∀ s, n.states.length ≤ s → s < n'.states.length → ∃ w, PPath es s w f

theorem compileMatch_pfrag (n : Nfa) (m : Match) (a : Nat) (ha : a < n.states.length) :
    PFrag n (n.compileMatch m a).1 (n.compileMatch m a).2 a [⟨n.states.length, some m, a⟩]
      (fun w => ∃ c : Match, w = [c] ∧ m.lo ≤ c.lo ∧ c.hi ≤ m.hi)
      (fun w m' => w = [] ∧ m' = m)
      (∃ c : Match, m.lo ≤ c.lo ∧ c.hi ≤ m.hi) := by
  have key : ∀ w, PPath [⟨n.states.length, some m, a⟩] n.states.length w a ↔
      ∃ c : Match, w = [c] ∧ m.lo ≤ c.lo ∧ c.hi ≤ m.hi := by
    intro w
    constructor
    · intro p
      cases p with
      | nil => omega
      | eps h1 h2 h3 _ => simp at h1; subst h1; simp at h3
      | chr h1 h2 h3 h4 h5 p =>
        simp at h1; subst h1
        simp at h3; subst h3
        have := p.stuck (by intro e he; simp at he; subst he; simp; omega)
        exact ⟨_, by simp [this.1], h4, h5⟩
    · rintro ⟨c, rfl, h1, h2⟩
      exact .chr (e := ⟨n.states.length, some m, a⟩) (by simp) rfl rfl h1 h2 (.nil a)
  refine ⟨?_, ?_, ?_, ?_, ?_, ?_, ?_⟩
  · have := (Ext.pushState (N := n.states.length) (n := n) (Nat.le_refl _)).trans
      (Ext.pushEdge (Nat.le_refl _) (open_pushState n) (some m) a)
    simpa [compileMatch] using this
  · simp
  · right; simp [compileMatch]
  · exact key
  · intro w e m' he hl p
    simp only [List.mem_singleton] at he
    subst he
    simp only [Option.some.injEq] at hl
    refine ⟨?_, hl.symm⟩
    cases p with
    | nil => rfl
    | eps h1 h2 h3 _ => simp at h1; subst h1; simp at h3
    | chr h1 h2 h3 h4 h5 p =>
      simp at h1; subst h1
      have := (p.stuck (by intro e he; simp at he; subst he; simp; omega)).2
      simp at this; omega
  · rintro w m' ⟨rfl, rfl⟩
    exact ⟨_, List.mem_singleton.mpr rfl, rfl, .nil _⟩
  · rintro ⟨c, hc⟩ s h1 h2
    simp [compileMatch] at h2
    have : s = n.states.length := by omega
    subst this
    exact ⟨[c], (key _).mpr ⟨c, rfl, hc⟩⟩

theorem PAltFrag.nil (n : Nfa) (f : Nat) (V : Prop) : PAltFrag n n [] f [] (fun _ => False) (fun _ _ => False) V where
  ext := Ext.refl _ n
  dst := by simp
  entry := by simp
  lang := by simp
  next := by simp
  hit := by simp
  co := by intro _ s h1 h2; omega

theorem PAltFrag.cons {n n₁ n₂ : Nfa} {t f : Nat} {ts : List Nat} {es₁ es₂ : List NEdge}
    {L₁ L₂ : List Match → Prop} {K₁ K₂ : List Match → Match → Prop} {V₁ V₂ : Prop} (hf : f < n.states.length)
    (h₁ : PFrag n n₁ t f es₁ L₁ K₁ V₁) (h₂ : PAltFrag n₁ n₂ ts f es₂ L₂ K₂ V₂) :
    PAltFrag n n₂ (t :: ts) f (es₁ ++ es₂) (fun w => L₁ w ∨ L₂ w) (fun w m => K₁ w m ∨ K₂ w m)
      (V₁ ∧ V₂) := by
  have l1 := h₁.ext.len
  have l2 := h₂.ext.len
  -- paths from old fragment stay there
  have r1 : ∀ s w, (s = f ∨ (n.states.length ≤ s ∧ s < n₁.states.length)) →
      ∀ x, PPath (es₁ ++ es₂) s w x →
        PPath es₁ s w x ∧ (x = f ∨ (n.states.length ≤ x ∧ x < n₁.states.length)) := by
    intro s w hs x p
    refine PPath.restrict_end (P := fun s => s = f ∨ (n.states.length ≤ s ∧ s < n₁.states.length)) ?_ hs p
    intro e he hP
    rcases List.mem_append.mp he with he | he
    · exact ⟨he, h₁.dst e he⟩
    · have := h₂.ext.src e he; omega
  have r2 : ∀ s w, (s = f ∨ (n₁.states.length ≤ s ∧ s < n₂.states.length)) →
      ∀ x, PPath (es₁ ++ es₂) s w x →
        PPath es₂ s w x ∧ (x = f ∨ (n₁.states.length ≤ x ∧ x < n₂.states.length)) := by
    intro s w hs x p
    refine PPath.restrict_end (P := fun s => s = f ∨ (n₁.states.length ≤ s ∧ s < n₂.states.length)) ?_ hs p
    intro e he hP
    rcases List.mem_append.mp he with he | he
    · have := h₁.ext.src e he; omega
    · exact ⟨he, h₂.dst e he⟩
  refine ⟨h₁.ext.trans (h₂.ext.weaken l1), ?_, ?_, ?_, ?_, ?_, ?_⟩
  · intro e he
    rcases List.mem_append.mp he with he | he
    · have := h₁.dst e he; omega
    · have := h₂.dst e he; omega
  · intro t' ht'
    rcases List.mem_cons.mp ht' with rfl | ht'
    · have := h₁.entry; omega
    · have := h₂.entry t' ht'; omega
  · intro w
    rw [← h₁.lang, ← h₂.lang]
    constructor
    · rintro ⟨t', ht', p⟩
      rcases List.mem_cons.mp ht' with rfl | ht'
      · exact .inl (r1 _ _ h₁.entry _ p).1
      · exact .inr ⟨t', ht', (r2 _ _ (h₂.entry t' ht') _ p).1⟩
    · rintro (p | ⟨t', ht', p⟩)
      · exact ⟨t, by simp, p.mono (by simp_all)⟩
      · exact ⟨t', by simp [ht'], p.mono (by simp_all)⟩
  · intro t' ht' w e m he hl p
    rcases List.mem_cons.mp ht' with rfl | ht'
    · obtain ⟨p1, hx⟩ := r1 _ _ h₁.entry _ p
      rcases List.mem_append.mp he with he | he
      · exact .inl (h₁.next w e m he hl p1)
      · have := h₂.ext.src e he; omega
    · obtain ⟨p1, hx⟩ := r2 _ _ (h₂.entry t' ht') _ p
      rcases List.mem_append.mp he with he | he
      · have := h₁.ext.src e he; omega
      · exact .inr (h₂.next t' ht' w e m he hl p1)
  · rintro w m (h | h)
    · obtain ⟨e, he, hl, p⟩ := h₁.hit w m h
      exact ⟨t, by simp, e, by simp [he], hl, p.mono (by simp_all)⟩
    · obtain ⟨t', ht', e, he, hl, p⟩ := h₂.hit w m h
      exact ⟨t', by simp [ht'], e, by simp [he], hl, p.mono (by simp_all)⟩
  · rintro ⟨v1, v2⟩ s hs1 hs2
    by_cases hs : s < n₁.states.length
    · obtain ⟨w, p⟩ := h₁.co v1 s hs1 hs
      exact ⟨w, p.mono (by simp_all)⟩
    · obtain ⟨w, p⟩ := h₂.co v2 s (by omega) hs2
      exact ⟨w, p.mono (by simp_all)⟩

theorem PFrag.imp {n n' : Nfa} {i a es L L' K K' V V'} (h : PFrag n n' i a es L K V)
    (hL : ∀ w, L w ↔ L' w) (hK : ∀ w m, K w m ↔ K' w m) (hV : V' → V) : PFrag n n' i a es L' K' V' :=
  ⟨h.ext, h.dst, h.entry, fun w => (h.lang w).trans (hL w),
    fun w e m h1 h2 h3 => (hK w m).mp (h.next w e m h1 h2 h3),
    fun w m hk => h.hit w m ((hK w m).mpr hk), fun v => h.co (hV v)⟩

theorem PAltFrag.imp {n n' : Nfa} {ts f es L L' K K' V V'} (h : PAltFrag n n' ts f es L K V)
    (hL : ∀ w, L w ↔ L' w) (hK : ∀ w m, K w m ↔ K' w m) (hV : V' → V) : PAltFrag n n' ts f es L' K' V' :=
  ⟨h.ext, h.dst, h.entry, fun w => (h.lang w).trans (hL w),
    fun t ht w e m h1 h2 h3 => (hK w m).mp (h.next t ht w e m h1 h2 h3),
    fun w m hk => h.hit w m ((hK w m).mpr hk), fun v => h.co (hV v)⟩

theorem compileMatches_pfrag (f : Nat) : ∀ (ms : List Match) (n : Nfa), f < n.states.length →
    ∃ es, PAltFrag n (compileMatches f ms n).1 (compileMatches f ms n).2 f es
      (fun w => ∃ m ∈ ms, ∃ c : Match, w = [c] ∧ m.lo ≤ c.lo ∧ c.hi ≤ m.hi)
      (fun w m => w = [] ∧ m ∈ ms)
      (∀ m ∈ ms, ∃ c : Match, m.lo ≤ c.lo ∧ c.hi ≤ m.hi)
  | [], n, _ => ⟨[], (PAltFrag.nil n f _).imp (by simp) (by simp) id⟩
  | m :: ms, n, hf => by
    have h1 := compileMatch_pfrag n m f hf
    have hlen := h1.ext.len
    obtain ⟨es, h2⟩ := compileMatches_pfrag f ms (n.compileMatch m f).1 (by omega)
    refine ⟨_, (PAltFrag.cons hf h1 h2).imp ?_ ?_ ?_⟩
    · intro w; simp
    · intro w m'
      simp only [List.mem_cons]
      grind
    · intro h; exact ⟨h m (by simp), fun m' hm' => h m' (by simp [hm'])⟩

/-- The `f`/`i` wrapper shared by classes and alternations. -/
theorem pwrap {n n₃ : Nfa} {a : Nat} {ts : List Nat} {es : List NEdge} {L : List Match → Prop}
    {K : List Match → Match → Prop} {V : Prop} (ha : a < n.states.length)
    (h : PAltFrag ((n.pushState.pushEdge n.states.length none a).pushState) n₃ ts
      n.states.length es L K V) :
    PFrag n (pushEps (n.states.length + 1) ts n₃) (n.states.length + 1) a
      (⟨n.states.length, none, a⟩ :: es ++ ts.map fun t => ⟨n.states.length + 1, none, t⟩)
      L K (V ∧ ts ≠ []) := by
  set N := n.states.length with hN
  clear_value N
  have e1 : Ext N n (n.pushState.pushEdge N none a) [⟨N, none, a⟩] := by
    rw [hN]
    simpa using (Ext.pushState (N := n.states.length) (n := n) (Nat.le_refl _)).trans
      (Ext.pushEdge (Nat.le_refl _) (open_pushState n) none a)
  have e2 : Ext N (n.pushState.pushEdge N none a) (n.pushState.pushEdge N none a).pushState [] :=
    Ext.pushState (by simp; omega)
  have l2 : (n.pushState.pushEdge N none a).pushState.states.length = N + 2 := by simp [hN]
  have e3 := h.ext
  rw [l2] at e3
  have l3 := e3.len
  rw [l2] at l3
  have ho : n₃.Open (N + 1) := by
    refine open_ext e3 (by omega) (by omega) ?_
    have := open_pushState (n.pushState.pushEdge N none a)
    simp [Nfa.pushState, hN]
  have e4 := pushEps_ext (N := N) (N + 1) (by omega) ts n₃ ho
  have eAll := ((e1.trans e2).trans (e3.weaken (N := N) (by omega))).trans e4
  simp only [List.append_nil, List.singleton_append] at eAll
  have l4 := pushEps_length (N + 1) ts n₃
  have hsrc := e3.src
  have hdst := h.dst
  have hent := h.entry
  rw [l2] at hdst hent
  -- paths from a target
  have key : ∀ s w, (s = N ∨ (N + 2 ≤ s ∧ s < n₃.states.length)) →
      (PPath (⟨N, none, a⟩ :: es ++ ts.map fun t => ⟨N + 1, none, t⟩) s w a ↔ PPath es s w N) := by
    intro s w hs
    constructor
    · intro p
      obtain ⟨w₁, w₂, rfl, p1, p2⟩ := PPath.split (es' := es)
        (Q := fun s => N + 2 ≤ s ∧ s < n₃.states.length) (m := N) (by
          intro e he hq
          simp only [List.cons_append, List.mem_cons, List.mem_append, List.mem_map] at he
          rcases he with rfl | he | ⟨t, ht, rfl⟩
          · simp only at hq; omega
          · exact ⟨he, hdst e he⟩
          · simp at hq) p hs (by omega)
      have : w₂ = [] := by
        cases p2 with
        | nil => rfl
        | eps h1 h2 h3 p =>
          simp only [List.cons_append, List.mem_cons, List.mem_append, List.mem_map] at h1
          rcases h1 with rfl | h1 | ⟨t, ht, rfl⟩
          · refine (p.stuck ?_).1
            intro e he
            simp only [List.cons_append, List.mem_cons, List.mem_append, List.mem_map] at he
            rcases he with rfl | he | ⟨t, ht, rfl⟩
            · simp; omega
            · have := hsrc e he; simp; omega
            · simp; omega
          · have := hsrc _ h1; omega
          · simp at h2
        | chr h1 h2 h3 _ _ p =>
          simp only [List.cons_append, List.mem_cons, List.mem_append, List.mem_map] at h1
          rcases h1 with rfl | h1 | ⟨t, ht, rfl⟩
          · simp at h3
          · have := hsrc _ h1; omega
          · simp at h2
      subst this
      simpa using p1
    · intro p
      have p1 : PPath (⟨N, none, a⟩ :: es ++ ts.map fun t => ⟨N + 1, none, t⟩) s w N :=
        p.mono (by intro e he; simp [he])
      have p2 : PPath (⟨N, none, a⟩ :: es ++ ts.map fun t => ⟨N + 1, none, t⟩) N [] a :=
        .eps (e := ⟨N, none, a⟩) (by simp) rfl rfl (.nil a)
      simpa using p1.trans p2
  have keyi : ∀ w, PPath (⟨N, none, a⟩ :: es ++ ts.map fun t => ⟨N + 1, none, t⟩) (N + 1) w a ↔
      ∃ t ∈ ts, PPath es t w N := by
    intro w
    constructor
    · intro p
      cases p with
      | nil => omega
      | eps h1 h2 h3 p =>
        simp only [List.cons_append, List.mem_cons, List.mem_append, List.mem_map] at h1
        rcases h1 with rfl | h1 | ⟨t, ht, rfl⟩
        · simp at h2
        · have := hsrc _ h1; omega
        · exact ⟨t, ht, (key t w (hent t ht)).mp p⟩
      | chr h1 h2 h3 _ _ p =>
        simp only [List.cons_append, List.mem_cons, List.mem_append, List.mem_map] at h1
        rcases h1 with rfl | h1 | ⟨t, ht, rfl⟩
        · simp at h2
        · have := hsrc _ h1; omega
        · simp at h3
    · rintro ⟨t, ht, p⟩
      exact .eps (e := ⟨N + 1, none, t⟩) (by simp [ht]) rfl rfl ((key t w (hent t ht)).mpr p)
  refine ⟨hN ▸ eAll, ?_, .inr ⟨by omega, by rw [l4]; omega⟩, ?_, ?_, ?_, ?_⟩
  · intro e he
    simp only [List.cons_append, List.mem_cons, List.mem_append, List.mem_map] at he
    rw [l4]
    rcases he with rfl | he | ⟨t, ht, rfl⟩
    · simp
    · have := hdst e he; omega
    · have := hent t ht
      simp only; omega
  · intro w
    rw [keyi, h.lang]
  · intro w e m he hl p
    have hes : e ∈ es := by
      simp only [List.cons_append, List.mem_cons, List.mem_append, List.mem_map] at he
      rcases he with rfl | he | ⟨t, ht, rfl⟩
      · simp at hl
      · exact he
      · simp at hl
    have hsx := hsrc e hes
    generalize hx : e.src = x at p
    cases p with
    | nil => omega
    | eps h1 h2 h3 p =>
      simp only [List.cons_append, List.mem_cons, List.mem_append, List.mem_map] at h1
      rcases h1 with rfl | h1 | ⟨t, ht, rfl⟩
      · simp at h2
      · have := hsrc _ h1; omega
      · rcases PPath.split_end (es' := es)
          (Q := fun s => N + 2 ≤ s ∧ s < n₃.states.length) (m := N) (by
            intro e he hq
            simp only [List.cons_append, List.mem_cons, List.mem_append, List.mem_map] at he
            rcases he with rfl | he | ⟨t, ht, rfl⟩
            · simp only at hq; omega
            · exact ⟨he, hdst e he⟩
            · simp at hq) p (hent t ht) with ⟨p1, -⟩ | ⟨w₁, w₂, -, -, p2⟩
        · exact h.next t ht w e m hes hl (hx ▸ p1)
        · exfalso
          cases p2 with
          | nil => omega
          | eps h1 h2 h3 p =>
            simp only [List.cons_append, List.mem_cons, List.mem_append, List.mem_map] at h1
            rcases h1 with rfl | h1 | ⟨t, ht, rfl⟩
            · have := (p.stuck (by
                intro e he
                simp only [List.cons_append, List.mem_cons, List.mem_append, List.mem_map] at he
                rcases he with rfl | he | ⟨t, ht, rfl⟩
                · simp; omega
                · have := hsrc e he; simp; omega
                · simp; omega)).2
              simp only at this; omega
            · have := hsrc _ h1; omega
            · simp at h2
          | chr h1 h2 h3 _ _ p =>
            simp only [List.cons_append, List.mem_cons, List.mem_append, List.mem_map] at h1
            rcases h1 with rfl | h1 | ⟨t, ht, rfl⟩
            · simp at h3
            · have := hsrc _ h1; omega
            · simp at h2
    | chr h1 h2 h3 _ _ p =>
      simp only [List.cons_append, List.mem_cons, List.mem_append, List.mem_map] at h1
      rcases h1 with rfl | h1 | ⟨t, ht, rfl⟩
      · simp at h2
      · have := hsrc _ h1; omega
      · simp at h3
  · intro w m hk
    obtain ⟨t, ht, e, he, hl, p⟩ := h.hit w m hk
    exact ⟨e, by simp [he], hl, .eps (e := ⟨N + 1, none, t⟩) (by simp [ht]) rfl rfl
      (p.mono (by intro e he; simp [he]))⟩
  · rintro ⟨hv, hne⟩ s hs1 hs2
    rw [l4] at hs2
    have co' : ∀ s, (s = N ∨ (N + 2 ≤ s ∧ s < n₃.states.length)) → ∃ w, PPath es s w N := by
      rintro s (rfl | hs)
      · exact ⟨[], .nil _⟩
      · exact h.co hv s (by rw [l2]; exact hs.1) hs.2
    by_cases hi : s = N + 1
    · subst hi
      obtain ⟨t, ht⟩ := List.exists_mem_of_ne_nil ts hne
      obtain ⟨w, p⟩ := co' t (hent t ht)
      exact ⟨w, (keyi w).mpr ⟨t, ht, p⟩⟩
    · obtain ⟨w, p⟩ := co' s (by omega)
      exact ⟨w, (key s w (by omega)).mpr p⟩

/-- Composition for concatenation. -/
theorem PFrag.seq {n n₁ n₂ : Nfa} {i m a : Nat} {es₁ es₂ : List NEdge} {L₁ L₂ : List Match → Prop}
    {K₁ K₂ : List Match → Match → Prop} {V₁ V₂ : Prop} (ha : a < n.states.length)
    (h₁ : PFrag n n₁ m a es₁ L₁ K₁ V₁) (h₂ : PFrag n₁ n₂ i m es₂ L₂ K₂ V₂) :
    PFrag n n₂ i a (es₁ ++ es₂) (fun w => ∃ u v, w = u ++ v ∧ L₂ u ∧ L₁ v)
      (fun w r => K₂ w r ∨ ∃ u v, w = u ++ v ∧ L₂ u ∧ K₁ v r) (V₁ ∧ V₂) := by
  have l1 := h₁.ext.len
  have l2 := h₂.ext.len
  have r1 : ∀ s w, (s = a ∨ (n.states.length ≤ s ∧ s < n₁.states.length)) →
      ∀ x, PPath (es₁ ++ es₂) s w x →
        PPath es₁ s w x ∧ (x = a ∨ (n.states.length ≤ x ∧ x < n₁.states.length)) := by
    intro s w hs x p
    refine PPath.restrict_end (P := fun s => s = a ∨ (n.states.length ≤ s ∧ s < n₁.states.length)) ?_ hs p
    intro e he hP
    rcases List.mem_append.mp he with he | he
    · exact ⟨he, h₁.dst e he⟩
    · have := h₂.ext.src e he; omega
  have hm := h₁.entry
  refine ⟨h₁.ext.trans (h₂.ext.weaken l1), ?_, ?_, ?_, ?_, ?_, ?_⟩
  · intro e he
    rcases List.mem_append.mp he with he | he
    · have := h₁.dst e he; omega
    · have := h₂.dst e he; omega
  · have := h₂.entry; omega
  · intro w
    constructor
    · intro p
      obtain ⟨w₁, w₂, rfl, p1, p2⟩ := PPath.split (es' := es₂)
        (Q := fun s => n₁.states.length ≤ s ∧ s < n₂.states.length) (m := m) (by
          intro e he hq
          rcases List.mem_append.mp he with he | he
          · have := h₁.ext.src e he; omega
          · exact ⟨he, h₂.dst e he⟩) p h₂.entry (by omega)
      exact ⟨w₁, w₂, rfl, (h₂.lang _).mp p1, (h₁.lang _).mp (r1 _ _ hm _ p2).1⟩
    · rintro ⟨u, v, rfl, hu, hv⟩
      have p1 := ((h₂.lang _).mpr hu).mono (es' := es₁ ++ es₂) (by simp_all)
      have p2 := ((h₁.lang _).mpr hv).mono (es' := es₁ ++ es₂) (by simp_all)
      exact p1.trans p2
  · intro w e r he hl p
    rcases PPath.split_end (es' := es₂)
        (Q := fun s => n₁.states.length ≤ s ∧ s < n₂.states.length) (m := m) (by
          intro e he hq
          rcases List.mem_append.mp he with he | he
          · have := h₁.ext.src e he; omega
          · exact ⟨he, h₂.dst e he⟩) p h₂.entry with ⟨p1, hx⟩ | ⟨w₁, w₂, rfl, p1, p2⟩
    · rcases List.mem_append.mp he with he | he
      · have := h₁.ext.src e he
        have hxm : e.src = m := by omega
        exact .inr ⟨w, [], by simp, (h₂.lang _).mp (hxm ▸ p1), h₁.next [] e r he hl (hxm ▸ .nil _)⟩
      · exact .inl (h₂.next w e r he hl p1)
    · obtain ⟨p3, hx⟩ := r1 _ _ hm _ p2
      rcases List.mem_append.mp he with he | he
      · exact .inr ⟨w₁, w₂, rfl, (h₂.lang _).mp p1, h₁.next w₂ e r he hl p3⟩
      · have := h₂.ext.src e he; omega
  · rintro w r (h | ⟨u, v, rfl, hu, hv⟩)
    · obtain ⟨e, he, hl, p⟩ := h₂.hit w r h
      exact ⟨e, by simp [he], hl, p.mono (by simp_all)⟩
    · obtain ⟨e, he, hl, p⟩ := h₁.hit v r hv
      exact ⟨e, by simp [he], hl, (((h₂.lang _).mpr hu).mono (by simp_all)).trans (p.mono (by simp_all))⟩
  · rintro ⟨v1, v2⟩ s hs1 hs2
    have c1 : ∀ s, (s = a ∨ (n.states.length ≤ s ∧ s < n₁.states.length)) → ∃ w, PPath es₁ s w a := by
      rintro s (rfl | hs)
      · exact ⟨[], .nil _⟩
      · exact h₁.co v1 s hs.1 hs.2
    by_cases hs : s < n₁.states.length
    · obtain ⟨w, p⟩ := c1 s (by omega)
      exact ⟨w, p.mono (by simp_all)⟩
    · obtain ⟨w, p⟩ := h₂.co v2 s (by omega) hs2
      obtain ⟨w', p'⟩ := c1 m hm
      exact ⟨w ++ w', (p.mono (by simp_all)).trans (p'.mono (by simp_all))⟩

theorem PFrag.rep {n n₁ : Nfa} {k : RepKind} {h : Hir} {sIn a : Nat} {es : List NEdge}
    {K : List Match → Match → Prop} {V : Prop} (hk : k ≠ .range) (ha : a < n.states.length)
    (hf : PFrag n.pushState n₁ sIn n.states.length es (PMatches h) K V) :
    PFrag n (repTail k n.states.length sIn a n₁) n₁.states.length a
      (es ++ repEdges k n.states.length sIn n₁.states.length a) (PMatches (.rep k h))
      (fun w r => ∃ u v, w = u ++ v ∧
        (u = [] ∨ ((k = .oneOrMore ∨ k = .zeroOrMore) ∧ PMatches (.rep .zeroOrMore h) u)) ∧ K v r) V := by
  set N := n.states.length with hN
  clear_value N
  have e0 := Ext.pushState (N := N) (n := n) (by omega)
  have e1 := hf.ext
  have l0 : n.pushState.states.length = N + 1 := by simp [hN]
  have l1 := e1.len
  have ho : n₁.Open N := by
    refine open_ext e1 (by omega) (by omega) ?_
    simp [Nfa.pushState, hN]
  obtain ⟨e2, l2⟩ := repTail_ext (N := N) (k := k) (sIn := sIn) (a := a) (Nat.le_refl N) ho
  have eAll := (e0.trans (e1.weaken (N := N) (by omega))).trans e2
  simp only [List.nil_append] at eAll
  have hdst := hf.dst
  have hent := hf.entry
  have hsrc := e1.src
  rw [l0] at hdst hent hsrc l1
  obtain ⟨M, hM⟩ : ∃ M, M = n₁.states.length := ⟨_, rfl⟩
  rw [← hM] at hdst hent hsrc l1 e2 l2 eAll ⊢
  obtain ⟨E, hE⟩ : ∃ E, E = es ++ repEdges k N sIn M a := ⟨_, rfl⟩
  rw [← hE] at eAll ⊢
  have mE : ∀ e, e ∈ E ↔ e ∈ es ∨ e ∈ repEdges k N sIn M a := by intro e; rw [hE]; simp
  have stuckA : ∀ w t, PPath E a w t → w = [] ∧ t = a := by
    intro w t p
    refine p.stuck ?_
    intro e he
    rw [mE, mem_repEdges] at he
    rcases he with he | rfl | ⟨_, rfl⟩ | rfl | ⟨_, rfl⟩
    · have := hsrc e he; omega
    all_goals (simp only; omega)
  have kz : k = .zeroOrOne ∨ k = .zeroOrMore ∨ k = .oneOrMore := by cases k <;> simp_all
  have pesOut : PPath E N [] a :=
    .eps (e := ⟨N, none, a⟩) (by rw [mE, mem_repEdges]; simp) rfl rfl (.nil a)
  have splitIn : ∀ j w, PPathN E j sIn w a → ∃ k' w₁ w₂, k' ≤ j ∧ w = w₁ ++ w₂ ∧ PMatches h w₁ ∧
      PPathN E k' N w₂ a := by
    intro j w p
    obtain ⟨k', w₁, w₂, hk', hw, p1, p2⟩ := p.split (es' := es) (Q := fun s => N + 1 ≤ s ∧ s < M)
      (m := N) (by
        intro e he hq
        rw [mE, mem_repEdges] at he
        rcases he with he | rfl | ⟨_, rfl⟩ | rfl | ⟨_, rfl⟩
        · exact ⟨he, hdst e he⟩
        all_goals (simp only at hq; omega)) hent (by omega)
    exact ⟨k', w₁, w₂, hk', hw, (hf.lang _).mp p1, p2⟩
  -- from the exit state
  have fromOut : ∀ j w, PPathN E j N w a →
      w = [] ∨ ((k = .oneOrMore ∨ k = .zeroOrMore) ∧ ∃ j' < j, PPathN E j' sIn w a) := by
    intro j w p
    cases p with
    | nil => exact .inl rfl
    | @eps e j _ _ _ h1 h2 h3 p =>
      rw [mE, mem_repEdges] at h1
      rcases h1 with h1 | rfl | ⟨hk1, rfl⟩ | rfl | ⟨_, rfl⟩
      · have := hsrc _ h1; omega
      · exact .inl (stuckA _ _ (ppath_iff_ppathN.mpr ⟨_, p⟩)).1
      · exact .inr ⟨hk1, j, by omega, p⟩
      all_goals (simp only at h2; omega)
    | chr h1 h2 h3 _ _ p =>
      rw [mE, mem_repEdges] at h1
      rcases h1 with h1 | rfl | ⟨hk1, rfl⟩ | rfl | ⟨_, rfl⟩
      · have := hsrc _ h1; omega
      all_goals simp at h3
  have star : ∀ j w, (k = .oneOrMore ∨ k = .zeroOrMore) → PPathN E j N w a →
      PMatches (.rep .zeroOrMore h) w := by
    intro j
    induction j using Nat.strongRecOn with
    | ind j ih =>
      intro w hk1 p
      rcases fromOut j w p with rfl | ⟨_, j', hj', p'⟩
      · exact .starNil
      · obtain ⟨k', w₁, w₂, hk', rfl, hm, p2⟩ := splitIn j' w p'
        exact .starCons hm (ih k' (by omega) w₂ hk1 p2)
  have inTo : ∀ w, PPath E sIn w a →
      (∃ w₁ w₂, w = w₁ ++ w₂ ∧ PMatches h w₁ ∧
        (w₂ = [] ∨ ((k = .oneOrMore ∨ k = .zeroOrMore) ∧ PMatches (.rep .zeroOrMore h) w₂))) := by
    intro w p
    obtain ⟨j, p⟩ := ppath_iff_ppathN.mp p
    obtain ⟨k', w₁, w₂, hk', rfl, hm, p2⟩ := splitIn j w p
    refine ⟨w₁, w₂, rfl, hm, ?_⟩
    rcases fromOut k' w₂ p2 with rfl | ⟨hk1, _⟩
    · exact .inl rfl
    · exact .inr ⟨hk1, star k' w₂ hk1 p2⟩
  have once : ∀ w, PMatches h w → PPath E sIn w N := by
    intro w hm
    exact ((hf.lang w).mpr hm).mono (by intro e he; rw [mE]; exact .inl he)
  have starIn : (k = .oneOrMore ∨ k = .zeroOrMore) → ∀ (g : Hir) w, PMatches g w →
      g = .rep .zeroOrMore h → PPath E N w a := by
    intro hk1 g w hm
    induction hm with
    | starNil => intro _; exact pesOut
    | @starCons h' w1 w2 h1 h2 ih1 ih2 =>
      intro hg
      have hh : h' = h := by injection hg
      subst hh
      exact .eps (e := ⟨N, none, sIn⟩) (by rw [mE, mem_repEdges]; simp [hk1]) rfl rfl
        ((once _ h1).trans (ih2 rfl))
    | _ => intro hg; simp at hg
  have edgeI : PPath E M [] sIn :=
    .eps (e := ⟨M, none, sIn⟩) (by rw [mE, mem_repEdges]; simp) rfl rfl (.nil _)
  have lang : ∀ w, PPath E M w a ↔ PMatches (.rep k h) w := by
    intro w
    constructor
    · intro p
      have cases1 : (PPath E sIn w a) ∨ ((k = .zeroOrOne ∨ k = .zeroOrMore) ∧ w = []) := by
        cases p with
        | nil => omega
        | @eps e _ _ _ h1 h2 h3 p =>
          rw [mE, mem_repEdges] at h1
          rcases h1 with h1 | rfl | ⟨hk1, rfl⟩ | rfl | ⟨hk1, rfl⟩
          · have := hsrc _ h1; omega
          · simp only at h2; omega
          · simp only at h2; omega
          · exact .inl p
          · exact .inr ⟨hk1, (stuckA _ _ p).1⟩
        | chr h1 h2 h3 _ _ p =>
          rw [mE, mem_repEdges] at h1
          rcases h1 with h1 | rfl | ⟨hk1, rfl⟩ | rfl | ⟨_, rfl⟩
          · have := hsrc _ h1; omega
          all_goals simp at h3
      rcases cases1 with p | ⟨hk1, rfl⟩
      · obtain ⟨w₁, w₂, rfl, hm, h2⟩ := inTo w p
        rcases kz with rfl | rfl | rfl
        · have : w₂ = [] := by simpa using h2
          subst this
          simpa using PMatches.optOne hm
        · refine .starCons hm ?_
          rcases h2 with rfl | ⟨_, h2⟩
          · exact .starNil
          · exact h2
        · refine .plus hm ?_
          rcases h2 with rfl | ⟨_, h2⟩
          · exact .starNil
          · exact h2
      · rcases hk1 with rfl | rfl
        · exact .optNil
        · exact .starNil
    · intro hm
      have viaA : (k = .zeroOrOne ∨ k = .zeroOrMore) → PPath E M [] a := fun hk1 =>
        .eps (e := ⟨M, none, a⟩) (by rw [mE, mem_repEdges]; simp [hk1]) rfl rfl (.nil _)
      cases hm with
      | optNil => exact viaA (by simp)
      | optOne h1 => simpa using edgeI.trans ((once _ h1).trans pesOut)
      | starNil => exact viaA (by simp)
      | starCons h1 h2 => simpa using edgeI.trans ((once _ h1).trans (starIn (by simp) _ _ h2 rfl))
      | plus h1 h2 => simpa using edgeI.trans ((once _ h1).trans (starIn (by simp) _ _ h2 rfl))
  refine ⟨hN ▸ eAll, ?_, .inr ⟨by omega, by omega⟩, lang, ?_, ?_, ?_⟩
  · intro e he
    rw [mE, mem_repEdges] at he
    rw [← hN, l2]
    rcases he with he | rfl | ⟨_, rfl⟩ | rfl | ⟨_, rfl⟩
    · have := hdst e he; omega
    · exact .inl rfl
    · simp only; omega
    · simp only; omega
    · exact .inl rfl
  · intro w e r he hl p
    have hes : e ∈ es := by
      rw [mE, mem_repEdges] at he
      rcases he with he | rfl | ⟨_, rfl⟩ | rfl | ⟨_, rfl⟩
      · exact he
      all_goals simp at hl
    have hsx := hsrc e hes
    have inner : ∀ j w, PPathN E j sIn w e.src → ∃ u v, w = u ++ v ∧
        (u = [] ∨ ((k = .oneOrMore ∨ k = .zeroOrMore) ∧ PMatches (.rep .zeroOrMore h) u)) ∧ K v r := by
      intro j
      induction j using Nat.strongRecOn with
      | ind j ih =>
        intro w p
        rcases p.split_end (es' := es) (Q := fun s => N + 1 ≤ s ∧ s < M)
          (m := N) (by
            intro e he hq
            rw [mE, mem_repEdges] at he
            rcases he with he | rfl | ⟨_, rfl⟩ | rfl | ⟨_, rfl⟩
            · exact ⟨he, hdst e he⟩
            all_goals (simp only at hq; omega)) hent with ⟨p1, -⟩ | ⟨k', w₁, w₂, hk', rfl, p1, p2⟩
        · exact ⟨[], w, rfl, .inl rfl, hf.next w e r hes hl p1⟩
        · have hm := (hf.lang _).mp p1
          generalize hx : e.src = x at p2
          cases p2 with
          | nil => omega
          | @eps e' j' _ _ _ h1 h2 h3 p =>
            rw [mE, mem_repEdges] at h1
            rcases h1 with h1 | rfl | ⟨hk1, rfl⟩ | rfl | ⟨_, rfl⟩
            · have := hsrc _ h1; omega
            · have := (stuckA _ _ (ppath_iff_ppathN.mpr ⟨_, p⟩)).2; omega
            · obtain ⟨u, v, rfl, hu, hv⟩ := ih j' (by omega) w₂ (hx ▸ p)
              refine ⟨w₁ ++ u, v, by simp, .inr ⟨hk1, .starCons hm ?_⟩, hv⟩
              rcases hu with rfl | ⟨_, hu⟩
              · exact .starNil
              · exact hu
            all_goals (simp only at h2; omega)
          | chr h1 h2 h3 _ _ p =>
            rw [mE, mem_repEdges] at h1
            rcases h1 with h1 | rfl | ⟨hk1, rfl⟩ | rfl | ⟨_, rfl⟩
            · have := hsrc _ h1; omega
            all_goals simp at h3
    generalize hx : e.src = x at p
    cases p with
    | nil => omega
    | @eps e' _ _ _ h1 h2 h3 p =>
      rw [mE, mem_repEdges] at h1
      rcases h1 with h1 | rfl | ⟨hk1, rfl⟩ | rfl | ⟨hk1, rfl⟩
      · have := hsrc _ h1; omega
      · simp only at h2; omega
      · simp only at h2; omega
      · obtain ⟨j, p⟩ := ppath_iff_ppathN.mp p
        exact inner j w (hx ▸ p)
      · have := (stuckA _ _ p).2; omega
    | chr h1 h2 h3 _ _ p =>
      rw [mE, mem_repEdges] at h1
      rcases h1 with h1 | rfl | ⟨hk1, rfl⟩ | rfl | ⟨_, rfl⟩
      · have := hsrc _ h1; omega
      all_goals simp at h3
  · rintro w r ⟨u, v, rfl, hu, hv⟩
    obtain ⟨e, he, hl, p⟩ := hf.hit v r hv
    have p' : PPath E sIn v e.src := p.mono (by intro e he; rw [mE]; exact .inl he)
    have toIn : ∀ (g : Hir) u, PMatches g u → g = .rep .zeroOrMore h → (k = .oneOrMore ∨ k = .zeroOrMore) →
        PPath E sIn u sIn := by
      intro g u hm
      induction hm with
      | starNil => intro _ _; exact .nil _
      | @starCons h' w1 w2 h1 h2 ih1 ih2 =>
        intro hg hk1
        have hh : h' = h := by injection hg
        subst hh
        refine (once _ h1).trans ?_
        exact .eps (e := ⟨N, none, sIn⟩) (by rw [mE, mem_repEdges]; simp [hk1]) rfl rfl (ih2 rfl hk1)
      | _ => intro hg; simp at hg
    refine ⟨e, by rw [mE]; exact .inl he, hl, edgeI.trans ?_⟩
    rcases hu with rfl | ⟨hk1, hu⟩
    · exact p'
    · exact (toIn _ u hu rfl hk1).trans p'
  · intro hv s hs1 hs2
    rw [l2] at hs2
    have c1 : ∀ s, (s = N ∨ (N + 1 ≤ s ∧ s < M)) → ∃ w, PPath E s w a := by
      rintro s (rfl | hs)
      · exact ⟨[], pesOut⟩
      · obtain ⟨w, p⟩ := hf.co hv s (by omega) (by omega)
        exact ⟨w ++ [], (p.mono (by intro e he; rw [mE]; exact .inl he)).trans pesOut⟩
    by_cases hi : s = M
    · subst hi
      obtain ⟨w, p⟩ := c1 sIn hent
      exact ⟨_, edgeI.trans p⟩
    · exact c1 s (by omega)

theorem pmatches_concat_cons {h : Hir} {hs : List Hir} {w : List Match} :
    PMatches (.concat (h :: hs)) w ↔ ∃ u v, w = u ++ v ∧ PMatches h u ∧ PMatches (.concat hs) v := by
  constructor
  · intro hm
    cases hm with
    | concatCons h1 h2 => exact ⟨_, _, rfl, h1, h2⟩
  · rintro ⟨u, v, rfl, h1, h2⟩
    exact .concatCons h1 h2

theorem PFrag.nil (n : Nfa) (a : Nat) (V : Prop) : PFrag n n a a [] (· = []) (fun _ _ => False) V where
  ext := Ext.refl _ n
  dst := by simp
  entry := .inl rfl
  lang w := by
    constructor
    · intro p; exact (p.stuck (by simp)).1
    · rintro rfl; exact .nil a
  next := by simp
  hit := by simp
  co := by intro _ s h1 h2; omega

mutual
theorem compile_pfrag : ∀ (h : Hir) (n : Nfa) (a : Nat) (n' : Nfa) (r : Option Nat),
    compile h n a = .ok (n', r) → a < n.states.length →
    match r with
    | none => n' = n ∧ BareEmpty h
    | some i => ∃ es, PFrag n n' i a es (PMatches h) (PNext h) (NonVoid h)
  | .empty, n, a, n', r, hc, ha => by
    simp only [compile, Except.ok.injEq, Prod.mk.injEq] at hc
    obtain ⟨rfl, rfl⟩ := hc
    exact ⟨rfl, .empty⟩
  | .lit c, n, a, n', r, hc, ha => by
    simp only [compile, Except.ok.injEq, Prod.mk.injEq] at hc
    obtain ⟨rfl, rfl⟩ := hc
    refine ⟨_, (compileMatch_pfrag n (Match.char c) a ha).imp ?_ ?_ ?_⟩
    · intro w
      constructor
      · rintro ⟨ch, rfl, h1, h2⟩
        exact .lit ⟨h1, h2⟩
      · intro hm
        cases hm with
        | lit h => exact ⟨_, rfl, h.1, h.2⟩
    · intro w m
      constructor
      · rintro ⟨rfl, rfl⟩; exact .lit
      · intro h; cases h; exact ⟨rfl, rfl⟩
    · intro hv
      cases hv with
      | lit ch => exact ⟨Match.char ch.toNat, Nat.le_refl _, Nat.le_refl _⟩
  | .cls rs, n, a, n', r, hc, ha => by
    simp only [compile, Except.ok.injEq, Prod.mk.injEq] at hc
    obtain ⟨rfl, rfl⟩ := hc
    obtain ⟨es, hes⟩ := compileMatches_pfrag n.states.length (rs.map classMatch)
      ((n.pushState.pushEdge n.states.length none a).pushState) (by simp; omega)
    have := pwrap ha hes
    simp only [length_pushEdge, length_pushState]
    refine ⟨_, this.imp ?_ ?_ ?_⟩
    · intro w
      constructor
      · rintro ⟨m, hm, ch, rfl, h1, h2⟩
        simp only [List.mem_map] at hm
        obtain ⟨r, hr, rfl⟩ := hm
        exact .cls hr ⟨h1, h2⟩
      · intro hm
        cases hm with
        | @cls c _ r h1 h2 =>
          exact ⟨classMatch r, List.mem_map.mpr ⟨r, h1, rfl⟩, c, rfl, h2.1, h2.2⟩
    · intro w m
      constructor
      · rintro ⟨rfl, hm⟩
        obtain ⟨r, hr, rfl⟩ := List.mem_map.mp hm
        exact .cls hr
      · intro h
        cases h with
        | cls hr => exact ⟨rfl, List.mem_map.mpr ⟨_, hr, rfl⟩⟩
    · intro hv
      cases hv with
      | cls hne hr =>
        refine ⟨?_, ?_⟩
        · intro m hm
          simp only [List.mem_map] at hm
          obtain ⟨r, hr', rfl⟩ := hm
          exact ⟨classMatch r, Nat.le_refl _, Nat.le_refl _⟩
        · intro h0
          have := congrArg List.length h0
          rw [compileMatches_length] at this
          simp at this
          exact hne this
  | .anchor, n, a, n', r, hc, ha => by simp [compile] at hc
  | .wordBoundary, n, a, n', r, hc, ha => by simp [compile] at hc
  | .rep k h, n, a, n', r, hc, ha => by
    by_cases hk : k = .range
    · subst hk; simp [compile] at hc
    have hc' : (do
        let (n1, r) ← compile h n.pushState n.states.length
        let sIn ← unwrapO r
        return (repTail k n.states.length sIn a n1, some n1.states.length)) = .ok (n', r) := by
      rw [← hc]
      cases k <;> simp_all [compile, repTail]
    cases h1 : compile h n.pushState n.states.length with
    | error e => simp [h1, bind, Except.bind] at hc'
    | ok p =>
      obtain ⟨n1, r1⟩ := p
      cases r1 with
      | none => simp [h1, bind, Except.bind, unwrapO] at hc'
      | some sIn =>
        simp only [h1, bind, Except.bind, unwrapO, pure, Except.pure, Except.ok.injEq,
          Prod.mk.injEq] at hc'
        obtain ⟨rfl, rfl⟩ := hc'
        obtain ⟨es, hf⟩ := compile_pfrag h _ _ _ _ h1 (by simp)
        refine ⟨_, (PFrag.rep hk ha hf).imp (fun _ => Iff.rfl) ?_ ?_⟩
        · intro w m
          constructor
          · rintro ⟨u, v, rfl, rfl | ⟨hk1, hu⟩, hv⟩
            · exact .repFirst hv
            · exact .repMore hk1 hu hv
          · intro h
            cases h with
            | repFirst h => exact ⟨[], w, rfl, .inl rfl, h⟩
            | repMore hk1 hu hv => exact ⟨_, _, rfl, .inr ⟨hk1, hu⟩, hv⟩
        intro hv
        cases hv with
        | rep hv => exact hv
  | .group h, n, a, n', r, hc, ha => by
    simp only [compile] at hc
    have := compile_pfrag h n a n' r hc ha
    cases r with
    | none => exact ⟨this.1, .group this.2⟩
    | some i =>
      obtain ⟨es, hf⟩ := this
      refine ⟨es, hf.imp ?_ (fun _ _ => ⟨.group, fun h => by cases h with | group h => exact h⟩) ?_⟩
      · intro w
        exact ⟨.group, fun hm => by cases hm with | group h => exact h⟩
      · intro hv
        cases hv with
        | group hv => exact hv
  | .concat hs, n, a, n', r, hc, ha => by
    simp only [compile] at hc
    cases h1 : compileConcat hs n a with
    | error e => simp [h1, bind, Except.bind] at hc
    | ok p =>
      obtain ⟨n1, i⟩ := p
      simp only [h1, bind, Except.bind, pure, Except.pure, Except.ok.injEq, Prod.mk.injEq] at hc
      obtain ⟨rfl, rfl⟩ := hc
      exact compileConcat_pfrag hs n a _ _ h1 ha
  | .alt hs, n, a, n', r, hc, ha => by
    simp only [compile, length_pushEdge, length_pushState] at hc
    cases h1 : compileAlts hs (n.pushState.pushEdge n.states.length none a).pushState
        n.states.length with
    | error e => simp [h1, bind, Except.bind] at hc
    | ok p =>
      obtain ⟨n1, os⟩ := p
      cases h2 : unwrapAll os with
      | error e => simp [h1, h2, bind, Except.bind] at hc
      | ok ts =>
        simp only [h1, h2, bind, Except.bind, pure, Except.pure, Except.ok.injEq,
          Prod.mk.injEq] at hc
        obtain ⟨rfl, rfl⟩ := hc
        obtain ⟨hl, es, hf⟩ := compileAlts_pfrag hs _ _ _ _ ts h1 h2 (by simp; omega)
        refine ⟨_, (pwrap ha hf).imp ?_ (fun _ _ => ⟨fun ⟨_, h1, h2⟩ => .alt h1 h2,
          fun h => by cases h with | alt h1 h2 => exact ⟨_, h1, h2⟩⟩) ?_⟩
        · intro w
          constructor
          · rintro ⟨h, hh, hm⟩; exact .alt hh hm
          · intro hm
            cases hm with
            | alt h1 h2 => exact ⟨_, h1, h2⟩
        · intro hv
          cases hv with
          | alt hne hv =>
            refine ⟨hv, ?_⟩
            rintro rfl
            simp at hl
            exact hne (List.length_eq_zero_iff.mp hl.symm)
theorem compileConcat_pfrag : ∀ (hs : List Hir) (n : Nfa) (a : Nat) (n' : Nfa) (i : Nat),
    compileConcat hs n a = .ok (n', i) → a < n.states.length →
    ∃ es, PFrag n n' i a es (PMatches (.concat hs)) (PNext (.concat hs)) (NonVoid (.concat hs))
  | [], n, a, n', i, hc, ha => by
    simp only [compileConcat, Except.ok.injEq, Prod.mk.injEq] at hc
    obtain ⟨rfl, rfl⟩ := hc
    refine ⟨[], (PFrag.nil n a _).imp ?_ (fun _ _ => ⟨False.elim, fun h => by cases h⟩) id⟩
    intro w
    constructor
    · rintro rfl; exact .concatNil
    · intro hm; cases hm; rfl
  | h :: hs, n, a, n', i, hc, ha => by
    simp only [compileConcat] at hc
    cases h1 : compileConcat hs n a with
    | error e => simp [h1, bind, Except.bind] at hc
    | ok p =>
      obtain ⟨n1, m⟩ := p
      simp only [h1, bind, Except.bind] at hc
      cases h2 : compile h n1 m with
      | error e => simp [h2] at hc
      | ok q =>
        obtain ⟨n2, r⟩ := q
        cases r with
        | none => simp [h2, unwrapO] at hc
        | some j =>
          simp only [h2, unwrapO, pure, Except.pure, Except.ok.injEq, Prod.mk.injEq] at hc
          obtain ⟨rfl, rfl⟩ := hc
          obtain ⟨es1, f1⟩ := compileConcat_pfrag hs n a _ _ h1 ha
          have hm : m < n1.states.length := by
            have := f1.entry
            have := f1.ext.len
            omega
          obtain ⟨es2, f2⟩ := compile_pfrag h n1 m _ _ h2 hm
          refine ⟨_, (PFrag.seq ha f1 f2).imp ?_ ?_ ?_⟩
          · intro w; exact pmatches_concat_cons.symm
          · intro w m
            constructor
            · rintro (h | ⟨u, v, rfl, hu, hv⟩)
              · exact .concatHead h
              · exact .concatTail hu hv
            · intro h
              cases h with
              | concatHead h => exact .inl h
              | concatTail hu hv => exact .inr ⟨_, _, rfl, hu, hv⟩
          · intro hv
            cases hv with
            | concat hv =>
              exact ⟨.concat fun h hh => hv h (by simp [hh]), hv h (by simp)⟩
theorem compileAlts_pfrag : ∀ (hs : List Hir) (n : Nfa) (f : Nat) (n' : Nfa) (os : List (Option Nat))
    (ts : List Nat), compileAlts hs n f = .ok (n', os) → unwrapAll os = .ok ts →
    f < n.states.length → ts.length = hs.length ∧
    ∃ es, PAltFrag n n' ts f es (fun w => ∃ h ∈ hs, PMatches h w) (fun w m => ∃ h ∈ hs, PNext h w m)
      (∀ h ∈ hs, NonVoid h)
  | [], n, f, n', os, ts, hc, hu, ha => by
    simp only [compileAlts, Except.ok.injEq, Prod.mk.injEq] at hc
    obtain ⟨rfl, rfl⟩ := hc
    simp only [unwrapAll, Except.ok.injEq] at hu
    subst hu
    exact ⟨rfl, [], (PAltFrag.nil n f _).imp (by simp) (by simp) id⟩
  | h :: hs, n, f, n', os, ts, hc, hu, ha => by
    simp only [compileAlts] at hc
    cases h1 : compile h n f with
    | error e => simp [h1, bind, Except.bind] at hc
    | ok p =>
      obtain ⟨n1, o⟩ := p
      simp only [h1, bind, Except.bind] at hc
      cases h2 : compileAlts hs n1 f with
      | error e => simp [h2] at hc
      | ok q =>
        obtain ⟨n2, os'⟩ := q
        simp only [h2, pure, Except.pure, Except.ok.injEq, Prod.mk.injEq] at hc
        obtain ⟨rfl, rfl⟩ := hc
        have := unwrapAll_ok hu
        cases ts with
        | nil => simp at this
        | cons t ts =>
          simp only [List.map_cons, List.cons.injEq] at this
          obtain ⟨rfl, hos⟩ := this
          have hu' : unwrapAll os' = .ok ts := by
            simp only [unwrapAll, unwrapO, bind, Except.bind] at hu
            cases hx : unwrapAll os' with
            | error e => simp [hx] at hu
            | ok ts' => simp [hx, pure, Except.pure] at hu; rw [hu]
          obtain ⟨es1, f1⟩ := compile_pfrag h n f _ _ h1 ha
          have hlen := f1.ext.len
          obtain ⟨hl, es2, f2⟩ := compileAlts_pfrag hs n1 f _ _ ts h2 hu' (by omega)
          refine ⟨by simp [hl], _, (PAltFrag.cons ha f1 f2).imp ?_ ?_ ?_⟩
          · intro w; simp
          · intro w m; simp
          · intro hv; exact ⟨hv h (by simp), fun h' hh => hv h' (by simp [hh])⟩
end

end Nfa
end Verif
