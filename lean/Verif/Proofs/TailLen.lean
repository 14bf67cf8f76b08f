import Verif.Proofs.TailOk
import Verif.Proofs.TsFilesLex

/-! # The length of the chain of tail calls of `Lex` -/

namespace Verif.MiniTs
set_option linter.unusedSectionVars false
variable {U : User} {G : Gen}

theorem evTail_mono {c c' : Call} (hcc : ∀ x as v, c x as = some v → c' x as = some v) :
    ∀ (e : Exp) (env : Env) (o : Out), evTail U c env e = some o → evTail U c' env e = some o := by
  have hag : ∀ qs, Agree c c' qs := fun qs q _ as v _ h => hcc _ _ _ h
  intro e
  induction e using Exp.rec (motive_2 := fun _ => True) with
  | lit t => intro env o h; simpa [evTail] using h
  | ref x es _ =>
    intro env o h
    cases es with
    | nil => simpa [evTail] using h
    | cons hd e es =>
      rw [evTail] at h ⊢
      obtain ⟨vs, h1, h2⟩ := Option.map_eq_some_iff.mp h
      rw [evs_on _ env vs (hag _) h1, ← h2]
      rfl
  | cond ce e t f _ _ iht ihf =>
    intro env o h
    rw [evTail] at h ⊢
    obtain ⟨a, h1, h2⟩ := Option.bind_eq_some_iff.mp h
    rw [ev_on ce env a (hag _) h1, Option.bind_some]
    cases he : early a (naked env ce) with
    | some r => rw [he] at h2; exact h2
    | none =>
      rw [he] at h2
      obtain ⟨r, h3, h4⟩ := Option.bind_eq_some_iff.mp h2
      simp only [pat_on e env a r (hag _) h3, Option.bind_some]
      cases r with
      | some b => exact iht (b ++ env) o h4
      | none => exact ihf env o h4
  | idx | keyof | arr | tup | obj | union | tmpl | code =>
    intro env o h
    rw [evTail] at h ⊢
    obtain ⟨a, h1, h2⟩ := Option.map_eq_some_iff.mp h
    rw [ev_on _ env a (hag _) h1, ← h2]
    rfl
  | infer | inferExt => intro env o h; simp [evTail] at h
  | nil => trivial
  | cons => trivial

/-- A call that finds only what there is. -/
def Below (U : User) (P : Prog) (inner : Mod → Call) : Prop := ∀ m x as v, inner m x as = some v → lim U P m x as = some v

theorem below_runTail {P : Prog} {N k : Nat} : Below U P (runTail U P N k) := fun _ _ _ _ h => lim_iff.mpr ⟨_, run_of_runTail h⟩

/-- One step of a chain. -/
theorem chain_step {P : Prog} {inner : Mod → Call} (hb : Below U P inner) {j : Nat} {m m' : Mod} {x y : Str} {as bs : List Ty} {v : Ty}
    (d : List Str × Exp) (hd : P m x = some ⟨m', d.1, d.2⟩) (hl : d.1.length = as.length)
    (ht : evTail U (lim U P m') (d.1.zip as) d.2 = some (.tail y bs)) (h : chain U P inner j m x as = some v) :
    ∃ i, j = i + 1 ∧ chain U P inner i m' y bs = some v := by
  cases j with
  | zero => simp [chain] at h
  | succ j =>
    rw [chain, hd] at h
    simp only [hl, if_true] at h
    cases ho : evTail U (inner m') (d.1.zip as) d.2 with
    | none => simp [ho] at h
    | some o =>
      have := evTail_mono (hb m') d.2 _ o ho
      rw [ht] at this
      cases this
      rw [ho] at h
      exact ⟨j, rfl, h⟩

theorem chain_pos {P : Prog} {inner : Mod → Call} {j : Nat} {m : Mod} {x : Str} {as : List Ty} {v : Ty}
    (h : chain U P inner j m x as = some v) : 1 ≤ j := by
  cases j with
  | zero => simp [chain] at h
  | succ j => omega

section
variable {inner : Mod → Call} (hb : Below U (prog G) inner)
include hb

theorem reverseImpl_chain : ∀ (l st : List Ty) (j : Nat) (v : Ty),
    chain U (prog G) inner j .util (name! "ReverseImpl") [.tup l, .tup st] = some v → l.length + 1 ≤ j
  | [], _, j, _, h => chain_pos h
  | t :: l, st, j, v, h => by
    obtain ⟨i, hi, h'⟩ := chain_step hb util.ReverseImpl rfl rfl
      (y := name! "ReverseImpl") (bs := [.tup l, .tup (t :: st)])
      (by simp [util.ReverseImpl, evTail, ev, evs, mget, early, naked, isPattern, mat, matTup, splice]) h
    have := reverseImpl_chain l (t :: st) i v h'
    simp only [List.length_cons]
    omega

theorem charList_chain (hG : CharsOk G) : ∀ (s : Str) (ret : List Ty) (j : Nat) (v : Ty), (∀ c ∈ s, (codeOf G c).isSome = true) →
    chain U (prog G) inner j .lex (name! "StringToCharList") [.str s, .tup ret] = some v → 2 * s.length + ret.length + 3 ≤ j
  | [], ret, j, v, _, h => by
    obtain ⟨i, hi, h1⟩ := chain_step hb lex.StringToCharList rfl rfl (y := name! "U.Reverse") (bs := [.tup ret])
      (by simp [lex.StringToCharList, evTail, ev, evs, mget, early, naked, isPattern, test, accepts, lift]) h
    obtain ⟨i', hi', h2⟩ := chain_step hb util.Reverse rfl rfl (y := name! "ReverseImpl") (bs := [.tup ret, .tup []])
      (by simp [util.Reverse, evTail, ev, evs, mget]) h1
    have := reverseImpl_chain hb ret [] i' v h2
    simp only [List.length_nil]
    omega
  | c :: s, ret, j, v, hs, h => by
    have hc := hs c (List.mem_cons_self ..)
    obtain ⟨i, hi, h1⟩ := chain_step hb lex.StringToCharList rfl rfl
      (y := name! "StringToCharList") (bs := [.str s, .tup (.str [c] :: ret)])
      (by
        simp [evTail, ev, evs, mget, early, naked, isPattern, mat, matchTmpl, test, splice,
          keysOf_objN, characters_eq, access_chars hG, ↓accepts_chars hG, hc, lex.StringToCharList, accepts, lift]) h
    have := charList_chain hG s (.str [c] :: ret) i v (fun d hd => hs d (List.mem_cons_of_mem _ hd)) h1
    simp only [List.length_cons] at this ⊢
    omega

end

/-- `Lex` of a text takes a chain that grows with the text. -/
theorem lex_chain (hG : CharsOk G) {N k : Nat} {s : Str} {v : Ty} (hs : ∀ c ∈ s, (codeOf G c).isSome = true)
    (h : runTail U (prog G) N k .lex (name! "Lex") [.str s] = some v) : 2 * s.length + 3 ≤ N := by
  cases k with
  | zero => simp [runTail] at h
  | succ k =>
    rw [runTail] at h
    cases N with
    | zero => simp [chain] at h
    | succ N =>
      rw [chain, show prog G .lex (name! "Lex") = some ⟨.lex, lex.Lex.1, lex.Lex.2⟩ from rfl] at h
      dsimp only at h
      rw [if_pos (show lex.Lex.1.length = [Ty.str s].length from rfl)] at h
      cases ho : evTail U (runTail U (prog G) (N + 1) k .lex) (lex.Lex.1.zip [.str s]) lex.Lex.2 with
      | none => rw [ho] at h; cases h
      | some o =>
        unfold lex.Lex at ho
        rw [evTail] at ho
        obtain ⟨a, h1, _⟩ := Option.bind_eq_some_iff.mp ho
        rw [ev] at h1
        obtain ⟨vs, h2, _⟩ := Option.bind_eq_some_iff.mp h1
        have h3 : ∃ u, runTail U (prog G) (N + 1) k .lex (name! "StringToCharList") [.str s, .tup []] = some u := by
          cases hu : runTail U (prog G) (N + 1) k .lex (name! "StringToCharList") [.str s, .tup []] with
          | some u => exact ⟨u, rfl⟩
          | none => simp [evs, ev, mget, hu] at h2
        obtain ⟨u, hu⟩ := h3
        cases k with
        | zero => simp [runTail] at hu
        | succ k =>
          rw [runTail] at hu
          exact charList_chain below_runTail hG s [] (N + 1) u hs hu

end Verif.MiniTs
