import Verif.Proofs.OverlapLaminar

/-! `remove_overlap` when ranges that cross are neither inside nor around others. -/

namespace Verif
namespace Overlap

/-- In ascending order, empty ranges aside. -/
def Asc (l : List Match) : Prop := l.Pairwise fun a b => a.lo < a.hi → b.lo < b.hi → a.hi ≤ b.lo

theorem Asc.not_meet {l : List Match} (h : Asc l) : l.Pairwise fun a b => ¬ Meet a b :=
  List.Pairwise.imp (fun {a b} h => by unfold Meet; omega) h

/-- Inserting a range that ends after all others: `S` is what remains of the list, `A` what has been
appended, `cur` what remains of the range. -/
theorem insChain : ∀ (S A L' : List Match) (cur : Match), Ins cur (S ++ A) L' → cur.lo < cur.hi → Asc S → Asc A →
    (∀ p ∈ S, p.lo < p.hi → p.hi < cur.hi) → (∀ a ∈ A, a.lo < a.hi → a.hi ≤ cur.lo) →
    (∀ p ∈ S, p.lo < p.hi → ∀ a ∈ A, a.lo < a.hi → p.hi ≤ a.lo ∨ cur.lo ≤ p.lo) →
    (∀ p ∈ S, ∀ x, cur.lo ≤ x → x < p.hi → p.lo < p.hi → ∃ q ∈ S, In x q) → Asc L' := by
  intro S
  induction S with
  | nil =>
    intro A L' cur h hc _ hA _ ha _ _
    rw [List.nil_append] at h
    rw [h.append hc fun p hp hm => by
      unfold Meet at hm
      have := ha p hp (by omega)
      omega]
    unfold Asc
    rw [List.pairwise_append]
    refine ⟨hA, List.pairwise_singleton _ _, fun a h1 b h2 h3 _ => ?_⟩
    rw [List.mem_singleton.mp h2]
    exact ha a h1 h3
  | cons p S ih =>
    intro A L' cur h hc hS hA hs ha hk hg
    rw [List.cons_append] at h
    obtain ⟨hp, hS⟩ := List.pairwise_cons.mp hS
    have hs' : ∀ p ∈ S, p.lo < p.hi → p.hi < cur.hi := fun q hq => hs q (List.mem_cons_of_mem _ hq)
    cases h with
    | empty he => rw [isEmpty_iff] at he; omega
    | @skip _ _ _ L1 _ hi h1 =>
      have hi : ¬ Meet p cur := by rw [meet_iff, hi]; simp
      have key : p.lo < p.hi → p.hi ≤ cur.lo := fun hpn => by
        have := hs p List.mem_cons_self hpn
        unfold Meet at hi; omega
      have hL := ih A L1 cur h1 hc hS hA hs' ha (fun q hq => hk q (List.mem_cons_of_mem _ hq)) (fun q hq x h2 h3 h4 => by
        obtain ⟨r, hr, h5⟩ := hg q (List.mem_cons_of_mem _ hq) x h2 h3 h4
        rcases List.mem_cons.mp hr with rfl | hr
        · unfold In at h5
          have := key (by omega)
          omega
        · exact ⟨r, hr, h5⟩)
      refine List.pairwise_cons.mpr ⟨fun b hb hpn hbn => ?_, hL⟩
      have hkey := key hpn
      rcases (h1.cover b.lo).mp ⟨b, hb, Nat.le_refl _, hbn⟩ with h2 | ⟨q, hq, h2⟩
      · unfold In at h2; omega
      · unfold In at h2
        rcases List.mem_append.mp hq with hq | hq
        · have := hp q hq hpn (by omega); omega
        · rcases hk p List.mem_cons_self hpn q hq (by omega) with h3 | h3 <;> omega
    | same _ => have := hs p List.mem_cons_self hc; omega
    | @split _ _ _ l1 l2 hi _ h1 h2 =>
      have hm : Meet p cur := meet_iff.mpr hi
      unfold Meet at hm
      have hph := hs p List.mem_cons_self (by omega)
      have hmid : l1 = (S ++ A) ++ [midOf cur p] := h1.append (by simp only [midOf]; omega) (fun q hq hm' => by
        simp only [Meet, midOf] at hm'
        rcases List.mem_append.mp hq with hq | hq
        · have := hp q hq (by omega) (by omega); omega
        · have := ha q hq (by omega); omega)
      subst hmid
      rw [List.append_assoc] at h2
      have hA' : Asc (A ++ [midOf cur p]) := by
        unfold Asc
        rw [List.pairwise_append]
        refine ⟨hA, List.pairwise_singleton _ _, fun a h1 b h2 h3 _ => ?_⟩
        rw [List.mem_singleton.mp h2]
        have := ha a h1 h3
        simp only [midOf]; omega
      have hL := ih (A ++ [midOf cur p]) l2 (mxOf cur p) h2 (by simp only [mxOf]; omega) hS hA'
        (fun q hq hqn => by have := hs' q hq hqn; simp only [mxOf]; omega)
        (fun a h3 h4 => by
          simp only [mxOf]
          rcases List.mem_append.mp h3 with h3 | h3
          · have := ha a h3 h4; omega
          · rw [List.mem_singleton.mp h3]; simp only [midOf]; omega)
        (fun q hq hqn _ _ _ => by
          have := hp q hq (by omega) hqn
          right; simp only [mxOf]; omega)
        (fun q hq x h3 h4 h5 => by
          simp only [mxOf] at h3
          obtain ⟨r, hr, h6⟩ := hg q (List.mem_cons_of_mem _ hq) x (by omega) h4 h5
          rcases List.mem_cons.mp hr with rfl | hr
          · unfold In at h6; omega
          · exact ⟨r, hr, h6⟩)
      refine List.pairwise_cons.mpr ⟨fun b hb hln hbn => ?_, hL⟩
      simp only [lowOf] at hln ⊢
      -- the gap before `p` is empty
      have hlo : p.lo < cur.lo := by
        rcases Nat.lt_or_ge p.lo cur.lo with h | h
        · exact h
        · exfalso
          obtain ⟨r, hr, h6⟩ := hg p List.mem_cons_self cur.lo (Nat.le_refl _) (by omega) (by omega)
          unfold In at h6
          rcases List.mem_cons.mp hr with rfl | hr
          · omega
          · have := hp r hr (by omega) (by omega); omega
      rcases (h2.cover b.lo).mp ⟨b, hb, Nat.le_refl _, hbn⟩ with h3 | ⟨q, hq, h3⟩
      · simp only [In, mxOf] at h3; omega
      · unfold In at h3
        simp only [List.mem_append, List.mem_singleton] at hq
        rcases hq with hq | hq | rfl
        · have := hp q hq (by omega) (by omega); omega
        · have := ha q hq (by omega)
          rcases hk p List.mem_cons_self (by omega) q hq (by omega) with h4 | h4 <;> omega
        · simp only [midOf] at h3; omega

/-- Ranges none of which is inside another, in ascending order. -/
theorem InsAll.chain {rs L L' : List Match} (h : InsAll rs L L') : ∀ Q : List Match, Asc L →
    (∀ x, (∃ p ∈ L, In x p) ↔ ∃ q ∈ Q, In x q) → (∀ r ∈ rs, r.lo < r.hi) →
    (∀ q ∈ Q, ∀ r ∈ rs, q.lo ≤ r.lo ∧ q.hi < r.hi) → rs.Pairwise (fun a b => a.lo ≤ b.lo ∧ a.hi < b.hi) → Asc L' := by
  induction h with
  | nil => intro Q h _ _ _ _; exact h
  | @cons r rs l l₁ l₂ h1 _ ih =>
    intro Q hA hcov hne hQ hp
    obtain ⟨hp1, hp2⟩ := List.pairwise_cons.mp hp
    have last : ∀ p ∈ l, p.lo < p.hi → ∃ q ∈ Q, q.lo ≤ p.hi - 1 ∧ p.hi ≤ q.hi := fun p hp hpn => by
      obtain ⟨q, hq, h2⟩ := (hcov (p.hi - 1)).mp ⟨p, hp, by omega, by omega⟩
      unfold In at h2
      exact ⟨q, hq, h2.1, by omega⟩
    refine ih (Q ++ [r]) ?_ ?_ (fun r hr => hne r (List.mem_cons_of_mem _ hr)) ?_ hp2
    · refine insChain l [] l₁ r (by rwa [List.append_nil]) (hne r List.mem_cons_self) hA .nil (fun p hp hpn => ?_) (by simp)
        (by simp) (fun p hp x hx1 hx2 hpn => ?_)
      · obtain ⟨q, hq, _, h3⟩ := last p hp hpn
        have := hQ q hq r List.mem_cons_self
        omega
      · obtain ⟨q, hq, _, h3⟩ := last p hp hpn
        have := hQ q hq r List.mem_cons_self
        exact (hcov x).mpr ⟨q, hq, by omega, by omega⟩
    · intro x
      rw [h1.cover x, hcov x]
      simp only [List.mem_append, List.mem_singleton]
      constructor
      · rintro (h | ⟨q, hq, h⟩)
        · exact ⟨r, .inr rfl, h⟩
        · exact ⟨q, .inl hq, h⟩
      · rintro ⟨q, hq | rfl, h⟩
        · exact .inr ⟨q, hq, h⟩
        · exact .inl h
    · intro q hq s hs
      rcases List.mem_append.mp hq with hq | hq
      · exact hQ q hq s (List.mem_cons_of_mem _ hs)
      · rw [List.mem_singleton.mp hq]
        exact hp1 s hs

/-- A part of the list that the range does not meet stays as it is. -/
theorem Ins.behind {r : Match} (hr : r.lo < r.hi) : ∀ {L1 L2 L' : List Match}, Ins r (L1 ++ L2) L' → (∀ p ∈ L1, ¬ Meet p r) →
    ∃ L2', L' = L1 ++ L2' ∧ Ins r L2 L2'
  | [], L2, L', h, _ => ⟨L', rfl, h⟩
  | p :: L1, L2, L', h, hd => by
    rw [List.cons_append] at h
    have hp := hd p List.mem_cons_self
    cases h with
    | empty he => rw [isEmpty_iff] at he; omega
    | skip _ _ h1 =>
      obtain ⟨L2', rfl, h2⟩ := Ins.behind hr h1 fun q hq => hd q (List.mem_cons_of_mem _ hq)
      exact ⟨L2', rfl, h2⟩
    | same _ => exact absurd (show Meet r r by unfold Meet; omega) hp
    | split hi => exact absurd (meet_iff.mpr hi) hp

theorem InsAll.behind {rs : List Match} (hr : ∀ r ∈ rs, r.lo < r.hi) {L1 : List Match} (hd : ∀ p ∈ L1, ∀ r ∈ rs, ¬ Meet p r) :
    ∀ {L2 L' : List Match}, InsAll rs (L1 ++ L2) L' → ∃ L2', L' = L1 ++ L2' ∧ InsAll rs L2 L2' := by
  induction rs with
  | nil => intro L2 L' h; cases h; exact ⟨L2, rfl, .nil⟩
  | cons r rs ih =>
    intro L2 L' h
    cases h with
    | cons h1 h2 =>
      obtain ⟨L3, rfl, h3⟩ := h1.behind (hr r List.mem_cons_self) fun p hp => hd p hp r List.mem_cons_self
      obtain ⟨L4, rfl, h4⟩ := ih (fun r h => hr r (List.mem_cons_of_mem _ h))
        (fun p hp r h => hd p hp r (List.mem_cons_of_mem _ h)) h2
      exact ⟨L4, rfl, .cons h3 h4⟩

theorem InsAll.split {A B L L' : List Match} (h : InsAll (A ++ B) L L') : ∃ M, InsAll A L M ∧ InsAll B M L' := by
  induction A generalizing L with
  | nil => exact ⟨L, .nil, h⟩
  | cons r A ih =>
    cases h with
    | cons h1 h2 =>
      obtain ⟨M, h3, h4⟩ := ih h2
      exact ⟨M, .cons h1 h3, h4⟩

/-- Empty ranges change nothing. -/
theorem InsAll.ne {rs L L' : List Match} (h : InsAll rs L L') : InsAll (rs.filter fun r => !r.isEmpty) L L' := by
  induction h with
  | nil => exact .nil
  | @cons r rs l l₁ l₂ h1 _ ih =>
    rw [List.filter_cons]
    split
    · exact .cons h1 ih
    · rename_i he
      have he : r.isEmpty = true := by simpa using he
      rw [h1.of_empty (isEmpty_iff.mp he)] at ih
      exact ih

theorem meet_in {a b : Match} {x : Nat} (h1 : In x a) (h2 : In x b) : Meet a b := by
  unfold In at *; unfold Meet; omega

/-- Ranges that cross are neither inside nor around others. -/
theorem InsAll.tame (n : Nat) : ∀ {rs L : List Match}, rs.length ≤ n → rs.Pairwise Lt → (∀ r ∈ rs, r.lo < r.hi) →
    (∀ a ∈ rs, ∀ b ∈ rs, ¬ Lam a b → ∀ c ∈ rs, c ≠ a → ¬ Lam a c ∨ ¬ Meet a c) → InsAll rs [] L →
    L.Pairwise fun a b => ¬ Meet a b := by
  induction n with
  | zero =>
    intro rs L hn _ _ _ h
    rw [List.length_eq_zero_iff.mp (Nat.le_zero.mp hn)] at h
    cases h
    exact .nil
  | succ n ih =>
    intro rs L hn hs hne ht h
    by_cases hsp : ∃ A B, rs = A ++ B ∧ A ≠ [] ∧ B ≠ [] ∧ ∀ a ∈ A, ∀ b ∈ B, ¬ Meet a b
    · obtain ⟨A, B, rfl, hA, hB, hd⟩ := hsp
      have lA := List.length_pos_iff.mpr hA
      have lB := List.length_pos_iff.mpr hB
      rw [List.length_append] at hn
      obtain ⟨M, h1, h2⟩ := h.split
      have hM : ∀ p ∈ M, ∀ r ∈ B, ¬ Meet p r := fun p hp r hr hm => by
        unfold Meet at hm
        have := (h1.cover (max p.lo r.lo)).mp ⟨p, hp, by unfold In; omega⟩
        simp only [List.not_mem_nil, false_and, exists_false, or_false] at this
        obtain ⟨a, ha, h3⟩ := this
        exact hd a ha r hr (meet_in h3 (by unfold In; omega))
      have h2' : InsAll B (M ++ []) L := by rwa [List.append_nil]
      obtain ⟨N, rfl, h4⟩ := h2'.behind (fun r hr => hne r (List.mem_append_right _ hr)) hM
      obtain ⟨s1, s2, _⟩ := List.pairwise_append.mp hs
      have i1 := ih (by omega) s1 (fun r hr => hne r (List.mem_append_left _ hr)) (fun a ha b hb hl c hc =>
        ht a (List.mem_append_left _ ha) b (List.mem_append_left _ hb) hl c (List.mem_append_left _ hc)) h1
      have i2 := ih (by omega) s2 (fun r hr => hne r (List.mem_append_right _ hr)) (fun a ha b hb hl c hc =>
        ht a (List.mem_append_right _ ha) b (List.mem_append_right _ hb) hl c (List.mem_append_right _ hc)) h4
      refine List.pairwise_append.mpr ⟨i1, i2, fun p hp q hq hm => ?_⟩
      unfold Meet at hm
      have := (h4.cover (max p.lo q.lo)).mp ⟨q, hq, by unfold In; omega⟩
      simp only [List.not_mem_nil, false_and, exists_false, or_false] at this
      obtain ⟨b, hb, h5⟩ := this
      exact hM p hp b hb (meet_in (by unfold In; omega) h5)
    · -- every range but the first meets an earlier one
      have conn : ∀ A r B, rs = A ++ r :: B → A ≠ [] → ∃ a ∈ A, Meet a r ∧ a ≠ r := by
        intro A r B e hA
        by_contra hcon
        refine hsp ⟨A, r :: B, e, hA, by simp, fun a ha b hb hm => hcon ⟨a, ha, ?_⟩⟩
        rw [e] at hs hne
        obtain ⟨_, s2, s3⟩ := List.pairwise_append.mp hs
        have h1 := s3 a ha r List.mem_cons_self
        have h2 := hne r (by simp)
        have h3 : r.lo ≤ b.lo := by
          rcases List.mem_cons.mp hb with rfl | hb
          · exact Nat.le_refl _
          · have := (List.pairwise_cons.mp s2).1 b hb
            unfold Lt at this; omega
        refine ⟨?_, fun e => ?_⟩
        · unfold Meet at *; unfold Lt at h1; omega
        · subst e; unfold Lt at h1; omega
      cases rs with
      | nil => cases h; exact .nil
      | cons hd tl =>
        have same : ∀ (k : Nat) (A : List Match) (r : Match) (B : List Match), A.length ≤ k → hd :: tl = A ++ r :: B →
            ((∃ b ∈ hd :: tl, ¬ Lam r b) ↔ ∃ b ∈ hd :: tl, ¬ Lam hd b) := by
          intro k
          induction k with
          | zero =>
            intro A r B hk e
            rw [List.length_eq_zero_iff.mp (Nat.le_zero.mp hk)] at e
            cases e; rfl
          | succ k ihk =>
            intro A r B hk e
            by_cases hA : A = []
            · subst hA; cases e; rfl
            · obtain ⟨a, ha, hm, hne'⟩ := conn A r B e hA
              obtain ⟨A1, A2, rfl⟩ := List.append_of_mem ha
              have ham : a ∈ hd :: tl := by rw [e]; simp
              have hrm : r ∈ hd :: tl := by rw [e]; simp
              rw [← ihk A1 a (A2 ++ r :: B) (by simp at hk ⊢; omega) (by rw [e]; simp)]
              have lamc : Lam r a ↔ Lam a r := by unfold Lam; rw [meet_comm]; tauto
              constructor
              · rintro ⟨b, hb, hl⟩
                rcases ht r hrm b hb hl a ham hne' with h1 | h1
                · exact ⟨r, hrm, fun h => h1 (lamc.mpr h)⟩
                · exact absurd (meet_comm.mp hm) h1
              · rintro ⟨b, hb, hl⟩
                rcases ht a ham b hb hl r hrm (Ne.symm hne') with h1 | h1
                · exact ⟨a, ham, fun h => h1 (lamc.mp h)⟩
                · exact absurd hm h1
        have same' : ∀ r ∈ hd :: tl, ((∃ b ∈ hd :: tl, ¬ Lam r b) ↔ ∃ b ∈ hd :: tl, ¬ Lam hd b) := fun r hr => by
          obtain ⟨A, B, e⟩ := List.append_of_mem hr
          exact same A.length A r B (Nat.le_refl _) e
        by_cases hcr : ∃ b ∈ hd :: tl, ¬ Lam hd b
        · refine (h.chain [] .nil (by simp) hne (by simp) ?_).not_meet
          refine List.Pairwise.imp_of_mem (fun {a b} ha hb hab => ?_) hs
          obtain ⟨c, hc, hl⟩ := (same' a ha).mpr hcr
          have hab' : b ≠ a := by rintro rfl; unfold Lt at hab; omega
          have h1 := hne a ha
          have h2 := hne b hb
          rcases ht a ha c hc hl b hb hab' with h3 | h3
          · unfold Lam at h3; unfold Lt at hab; unfold Meet at h3; omega
          · unfold Meet at h3; unfold Lt at hab; omega
        · have hlam : ∀ a ∈ hd :: tl, ∀ b ∈ hd :: tl, Lam a b := fun a ha b hb => by
            by_contra hl
            exact hcr ((same' a ha).mp ⟨b, hb, hl⟩)
          have h0 : LInv [] ([] : List Match) := ⟨.nil, by simp, by simp, by simp, fun _ _ => .nil⟩
          have := LInv.all h [] h0 (by intro r _; exact ⟨by simp, by simp⟩)
            (List.Pairwise.imp_of_mem (fun {a b} ha hb hab => ⟨hab, hlam a ha b hb⟩) hs)
          exact this.disj

/-- Inserting any range into an ascending list without gaps from its beginning on. -/
theorem insLast : ∀ (S A L' : List Match) (cur : Match), Ins cur (S ++ A) L' → cur.lo < cur.hi → Asc S →
    A.Pairwise (fun a b => ¬ Meet a b) → (∀ a ∈ A, a.lo < a.hi → a.hi ≤ cur.lo) → (∀ p ∈ S, ∀ a ∈ A, ¬ Meet p a) →
    (∀ p ∈ S, ∀ x, cur.lo ≤ x → x < p.hi → p.lo < p.hi → ∃ q ∈ S, In x q) → L'.Pairwise fun a b => ¬ Meet a b := by
  intro S
  induction S with
  | nil =>
    intro A L' cur h hc _ hA ha _ _
    rw [List.nil_append] at h
    have hno : ∀ p ∈ A, ¬ Meet p cur := fun p hp hm => by
      unfold Meet at hm
      have := ha p hp (by omega)
      omega
    rw [h.append hc hno, List.pairwise_append]
    exact ⟨hA, List.pairwise_singleton _ _, fun a h1 b h2 => by rw [List.mem_singleton.mp h2]; exact hno a h1⟩
  | cons p S ih =>
    intro A L' cur h hc hS hA ha hk hg
    have hall : ((p :: S) ++ A).Pairwise fun a b => ¬ Meet a b := List.pairwise_append.mpr ⟨hS.not_meet, hA, hk⟩
    have hcons : (∀ q ∈ S ++ A, ¬ Meet p q) ∧ (S ++ A).Pairwise fun a b => ¬ Meet a b := List.pairwise_cons.mp hall
    obtain ⟨hp, hS'⟩ := List.pairwise_cons.mp hS
    rw [List.cons_append] at h
    have hno : (∀ q ∈ S, ¬ Meet q cur) → ∀ q ∈ S ++ A, ¬ Meet q cur := fun hq q h1 => by
      rcases List.mem_append.mp h1 with h1 | h1
      · exact hq q h1
      · intro hm
        unfold Meet at hm
        have := ha q h1 (by omega)
        omega
    cases h with
    | empty he => rw [isEmpty_iff] at he; omega
    | @skip _ _ _ L1 _ hi h1 =>
      have hi : ¬ Meet p cur := by rw [meet_iff, hi]; simp
      have hL : L1.Pairwise fun a b => ¬ Meet a b := by
        by_cases hbe : p.lo < p.hi ∧ cur.hi ≤ p.lo
        · have hno := hno fun q hq hm => by
            unfold Meet at hm
            have := hp q hq hbe.1 (by omega)
            omega
          rw [h1.append hc hno, List.pairwise_append]
          exact ⟨hcons.2, List.pairwise_singleton _ _, fun a h1 b h2 => by rw [List.mem_singleton.mp h2]; exact hno a h1⟩
        · refine ih A L1 cur h1 hc hS' hA ha (fun q hq => hk q (List.mem_cons_of_mem _ hq)) fun q hq x h2 h3 h4 => ?_
          obtain ⟨r, hr, h5⟩ := hg q (List.mem_cons_of_mem _ hq) x h2 h3 h4
          rcases List.mem_cons.mp hr with rfl | hr
          · unfold In at h5; unfold Meet at hi; omega
          · exact ⟨r, hr, h5⟩
      refine List.pairwise_cons.mpr ⟨fun b hb hm => ?_, hL⟩
      unfold Meet at hm
      rcases (h1.cover (max p.lo b.lo)).mp ⟨b, hb, by unfold In; omega⟩ with h2 | ⟨q, hq, h2⟩
      · exact hi (meet_in (by unfold In; omega) h2)
      · exact hcons.1 q hq (meet_in (by unfold In; omega) h2)
    | same _ => exact hall
    | @split _ _ _ l1 l2 hi _ h1 h2 =>
      have hm : Meet p cur := meet_iff.mpr hi
      unfold Meet at hm
      have hlo : p.lo ≤ cur.lo := by
        obtain ⟨r, hr, h6⟩ := hg p List.mem_cons_self cur.lo (Nat.le_refl _) (by omega) (by omega)
        unfold In at h6
        rcases List.mem_cons.mp hr with rfl | hr
        · exact h6.1
        · have := hp r hr (by omega) (by omega); omega
      have inp : ∀ q, (∀ x, In x q → In x p) → ∀ r ∈ S ++ A, ¬ Meet r q := fun q hq r hr hm' => by
        unfold Meet at hm'
        exact hcons.1 r hr (meet_in (hq (max r.lo q.lo) (by unfold In; omega)) (by unfold In; omega))
      have hmid : l1 = (S ++ A) ++ [midOf cur p] := h1.append (by simp only [midOf]; omega)
        (inp _ fun x hx => by simp only [In, midOf] at hx ⊢; omega)
      subst hmid
      have hrest : ((S ++ A) ++ [midOf cur p]).Pairwise fun a b => ¬ Meet a b :=
        List.pairwise_append.mpr ⟨hcons.2, List.pairwise_singleton _ _, fun a h1 b h2 => by
          rw [List.mem_singleton.mp h2]
          exact inp _ (fun x hx => by simp only [In, midOf] at hx ⊢; omega) a h1⟩
      have hL : l2.Pairwise fun a b => ¬ Meet a b := by
        rcases Nat.lt_or_ge p.hi cur.hi with hlt | hge
        · rw [List.append_assoc] at h2 hrest
          refine ih (A ++ [midOf cur p]) l2 (mxOf cur p) h2 (by simp only [mxOf]; omega) hS' (List.pairwise_append.mp hrest).2.1
            (fun a h3 h4 => ?_) (List.pairwise_append.mp hrest).2.2 fun q hq x h3 h4 h5 => ?_
          · simp only [mxOf]
            rcases List.mem_append.mp h3 with h3 | h3
            · have := ha a h3 h4; omega
            · rw [List.mem_singleton.mp h3]; simp only [midOf]; omega
          · simp only [mxOf] at h3
            obtain ⟨r, hr, h6⟩ := hg q (List.mem_cons_of_mem _ hq) x (by omega) h4 h5
            rcases List.mem_cons.mp hr with rfl | hr
            · unfold In at h6; omega
            · exact ⟨r, hr, h6⟩
        · by_cases hmx : (mxOf cur p).lo < (mxOf cur p).hi
          · have hno' : ∀ q ∈ (S ++ A) ++ [midOf cur p], ¬ Meet q (mxOf cur p) := fun q hq => by
              rcases List.mem_append.mp hq with hq | hq
              · exact inp _ (fun x hx => by simp only [In, mxOf] at hx ⊢; omega) q hq
              · rw [List.mem_singleton.mp hq]; simp only [Meet, midOf, mxOf]; omega
            rw [h2.append hmx hno', List.pairwise_append]
            exact ⟨hrest, List.pairwise_singleton _ _, fun a h1 b h2 => by rw [List.mem_singleton.mp h2]; exact hno' a h1⟩
          · rw [h2.of_empty (by omega)]
            exact hrest
      refine List.pairwise_cons.mpr ⟨fun b hb hm' => ?_, hL⟩
      simp only [lowOf, Meet] at hm'
      rcases (h2.cover (max p.lo b.lo)).mp ⟨b, hb, by unfold In; omega⟩ with h3 | ⟨q, hq, h3⟩
      · simp only [In, mxOf] at h3; omega
      · rcases List.mem_append.mp hq with hq | hq
        · exact hcons.1 q hq (meet_in (by unfold In; omega) h3)
        · rw [List.mem_singleton.mp hq] at h3
          simp only [In, midOf] at h3; omega

/-- Two ranges. -/
theorem InsAll.two {a b : Match} {L : List Match} (ha : a.lo < a.hi) (hb : b.lo < b.hi) (hs : Lt a b) (h : InsAll [a, b] [] L) :
    Asc L := by
  unfold Lt at hs
  cases h with
  | cons h1 h2 =>
    cases h2 with
    | cons h2 h3 =>
      cases h3
      rw [h1.append ha (by simp)] at h2
      have asc2 : ∀ {x y : Match}, x.hi ≤ y.lo → Asc [x, y] := fun h =>
        List.pairwise_cons.mpr ⟨fun z hz _ _ => by rw [List.mem_singleton.mp hz]; exact h, List.pairwise_singleton _ _⟩
      have asc3 : ∀ {x y z : Match}, x.hi ≤ y.lo → x.hi ≤ z.lo → y.hi ≤ z.lo → Asc [x, y, z] := fun h h' h'' =>
        List.pairwise_cons.mpr ⟨fun w hw _ _ => by
          rcases List.mem_cons.mp hw with rfl | hw
          · exact h
          · rw [List.mem_singleton.mp hw]; exact h', asc2 h''⟩
      cases h2 with
      | empty he => rw [isEmpty_iff] at he; omega
      | skip _ hi h4 =>
        rw [h4.append hb (by simp)]
        have hi : ¬ Meet a b := by rw [meet_iff, hi]; simp
        unfold Meet at hi
        exact asc2 (by omega)
      | same _ => omega
      | split hi _ h4 h5 =>
        have hm : Meet a b := meet_iff.mpr hi
        unfold Meet at hm
        rw [h4.append (by simp only [midOf]; omega) (by simp)] at h5
        by_cases hmx : (mxOf b a).lo < (mxOf b a).hi
        · rw [h5.append hmx fun p hp => by
            rw [List.nil_append, List.mem_singleton] at hp
            rw [hp]; simp only [Meet, midOf, mxOf]; omega]
          exact asc3 (by simp only [lowOf, midOf]; omega) (by simp only [lowOf, mxOf]; omega) (by simp only [midOf, mxOf]; omega)
        · rw [h5.of_empty (by omega)]
          exact asc2 (by simp only [lowOf, midOf]; omega)

/-- At most three ranges. -/
theorem InsAll.three {rs L : List Match} (hn : rs.length ≤ 3) (hs : rs.Pairwise Lt) (hne : ∀ r ∈ rs, r.lo < r.hi)
    (h : InsAll rs [] L) : L.Pairwise fun a b => ¬ Meet a b := by
  match rs, hn, hs, hne, h with
  | [], _, _, _, .nil => exact .nil
  | [a], _, _, hne, .cons h1 .nil =>
    rw [h1.append (hne a (by simp)) (by simp)]
    exact List.pairwise_singleton _ _
  | [a, b], _, hs, hne, h =>
    exact (h.two (hne a (by simp)) (hne b (by simp)) ((List.pairwise_cons.mp hs).1 b (by simp))).not_meet
  | [a, b, c], _, hs, hne, h =>
    obtain ⟨M, h1, h2⟩ := InsAll.split (A := [a, b]) (B := [c]) h
    obtain ⟨s1, s2⟩ := List.pairwise_cons.mp hs
    have h12 := s1 b (by simp)
    have h13 := s1 c (by simp)
    have h23 := (List.pairwise_cons.mp s2).1 c (by simp)
    have hM := h1.two (hne a (by simp)) (hne b (by simp)) h12
    cases h2 with
    | cons h2 h3 =>
      cases h3
      refine insLast M [] L c (by rwa [List.append_nil]) (hne c (by simp)) hM .nil (by simp) (by simp) fun p hp x hx1 hx2 hpn => ?_
      have hcov := fun x => h1.cover x
      simp only [List.not_mem_nil, false_and, exists_false, or_false] at hcov
      obtain ⟨q, hq, h4⟩ := (hcov (p.hi - 1)).mp ⟨p, hp, by omega, by omega⟩
      unfold In at h4
      refine (hcov x).mpr ⟨q, hq, ?_, by omega⟩
      unfold Lt at *
      simp only [List.mem_cons, List.not_mem_nil, or_false] at hq
      rcases hq with rfl | rfl <;> omega
  | _ :: _ :: _ :: _ :: _, hn, _, _, _ => simp at hn

theorem removeOverlap_tame {rs : List Match} (hs : Sorted rs)
    (ht : rs.length ≤ 3 ∨ ∀ a ∈ rs, ∀ b ∈ rs, ¬ Lam a b → ∀ c ∈ rs, c.lo < c.hi → c ≠ a → ¬ Lam a c ∨ ¬ Meet a c) :
    ∃ out, removeOverlap rs = .ok out ∧ out.Pairwise Disj := by
  obtain ⟨l, h1, h2⟩ := removeOverlap_ins rs
  refine ⟨_, h2, ?_⟩
  have hn : ∀ r ∈ rs.filter fun r => !r.isEmpty, r.lo < r.hi := fun r hr => by
    have := (List.mem_filter.mp hr).2; simpa [Match.isEmpty] using this
  have hs' : rs.Pairwise Lt := List.Pairwise.imp (fun {a b} h => blt_lt.mp h) (show rs.Pairwise (fun a b => blt a b = true) from hs)
  have : l.Pairwise fun a b => ¬ Meet a b := by
    rcases ht with ht | ht
    · exact InsAll.three (Nat.le_trans (List.length_filter_le _ _) ht) (hs'.filter _) hn h1.ne
    · exact InsAll.tame _ (Nat.le_refl _) (hs'.filter _) hn (fun a ha b hb hl c hc =>
        ht a (List.mem_filter.mp ha).1 b (List.mem_filter.mp hb).1 hl c (List.mem_filter.mp hc).1 (hn c hc)) h1.ne
  exact (this.filter _).imp fun hab => not_meet_iff.mp hab

end Overlap
end Verif
