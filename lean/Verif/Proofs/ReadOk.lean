import Verif.Spec.TsDecl
import Verif.Proofs.ScanLits

/-! # Scanning and reading lists -/

namespace Verif.Spec
open Verif LexGen

theorem scan_flatMap {α : Type} {f : α → Str} {g : α → List TsTok} : ∀ {l : List α},
    (∀ a ∈ l, ∀ out, scanFrom ⟨.between, out⟩ (f a) = ⟨.between, out ++ g a⟩) → ∀ out,
    scanFrom ⟨.between, out⟩ (l.flatMap f) = ⟨.between, out ++ l.flatMap g⟩
  | [], _, out => by simp [scanFrom]
  | a :: l, h, out => by
    rw [List.flatMap_cons, scanFrom_append, h a (by simp), scan_flatMap (fun b hb => h b (by simp [hb]))]
    simp

/-- Lists of words with commas between. -/
def commas : List (List TsTok) → List TsTok
  | [] => []
  | [a] => a
  | a :: b :: l => a ++ .punct ',' :: commas (b :: l)

theorem scan_join {α : Type} {f : α → Str} {m : α → Scanning} {pre fin : α → List TsTok} {sep close : Str} {m' : Scanning}
    {cl : List TsTok} (hf : ∀ a out, scanFrom ⟨.between, out⟩ (f a) = ⟨m a, out ++ pre a⟩)
    (hs : ∀ a out, scanFrom ⟨m a, out⟩ sep = ⟨.between, out ++ (fin a ++ [.punct ','])⟩)
    (hc : ∀ a out, scanFrom ⟨m a, out⟩ close = ⟨m', out ++ (fin a ++ cl)⟩)
    (h0 : ∀ out, scanFrom ⟨.between, out⟩ close = ⟨m', out ++ cl⟩) : ∀ (l : List α) (out : List TsTok),
    scanFrom (scanFrom ⟨.between, out⟩ (join sep (l.map f))) close =
      ⟨m', out ++ (commas (l.map fun a => pre a ++ fin a) ++ cl)⟩
  | [], out => by
    simp only [List.map_nil, join, commas]
    exact h0 out
  | [a], out => by
    simp only [List.map_cons, List.map_nil, join, commas]
    rw [hf, hc]
    simp
  | a :: b :: l, out => by
    have := scan_join hf hs hc h0 (b :: l)
    simp only [List.map_cons, join, commas] at this ⊢
    rw [scanFrom_append, scanFrom_append, hf, hs, this]
    simp

theorem readToks_append : ∀ (a b : List TsTok) (r : Reader), readToks r (a ++ b) = (readToks r a).bind fun r => readToks r b
  | [], b, r => rfl
  | t :: a, b, r => by
    simp only [List.cons_append, readToks]
    cases readStep r t with
    | none => rfl
    | some r => exact readToks_append a b r

/-- Ready for what follows in `fs`: nothing pending, or a declaration or member that a
line break has ended. -/
inductive Ready (fs : List Inside) (ds : List (Str × TsTy)) : Reader → Prop
  | here (b) : Ready fs ds ⟨fs, none, b, ds⟩
  | pending {fs' t ds'} : endType ds' fs' t = some ⟨fs, none, false, ds⟩ → Ready fs ds ⟨fs', some t, true, ds'⟩

theorem Ready.newline {fs ds r} (h : Ready fs ds r) (rest : List TsTok) : ∃ r', Ready fs ds r' ∧
    readToks r (.newline :: rest) = readToks r' rest := by
  cases h with
  | here b => exact ⟨_, .here true, rfl⟩
  | pending h => exact ⟨_, .pending h, rfl⟩

theorem Ready.word {fs ds r} (h : Ready fs ds r) (w : Str) (rest : List TsTok) :
    readToks r (.word w :: rest) = (readWord ds fs w).bind fun r => readToks r rest := by
  cases h with
  | here b => rfl
  | pending h => simp only [readToks, readStep, h, if_true, Option.bind_some]

theorem Ready.num {fs ds r} (h : Ready fs ds r) (n : Nat) (rest : List TsTok) :
    readToks r (.num n :: rest) = (readLit ds fs (.num n) (.num n)).bind fun r => readToks r rest := by
  cases h with
  | here b => rfl
  | pending h => simp only [readToks, readStep, h, if_true, Option.bind_some]

theorem Ready.str {fs ds r} (h : Ready fs ds r) (s : Str) (rest : List TsTok) :
    readToks r (.str s :: rest) = (readLit ds fs (.name s) (.str s)).bind fun r => readToks r rest := by
  cases h with
  | here b => rfl
  | pending h => simp only [readToks, readStep, h, if_true, Option.bind_some]

theorem Ready.done {ds r} (h : Ready [] ds r) : readEnd r = some ds := by
  cases h with
  | here b => rfl
  | pending h => simp only [readEnd, h, Option.bind_some, List.isEmpty_nil, if_true]

/-- The same inside an object type. -/
inductive InObj (ms : List (TsKey × TsTy)) (fs : List Inside) (ds : List (Str × TsTy)) : Reader → Prop
  | here (b) : InObj ms fs ds ⟨.obj ms :: fs, none, b, ds⟩
  | member {fs' t k ms₀ t'} : closeUnion fs' t = (.member k :: .obj ms₀ :: fs, t') → ms = ms₀ ++ [(k, t')] →
      InObj ms fs ds ⟨fs', some t, true, ds⟩

theorem InObj.ready {ms fs ds r} (h : InObj ms fs ds r) : Ready (.obj ms :: fs) ds r := by
  cases h with
  | here b => exact .here b
  | member h1 h2 => subst h2; exact .pending (by simp only [endType, h1])

theorem InObj.newline {ms fs ds r} (h : InObj ms fs ds r) (rest : List TsTok) : ∃ r', InObj ms fs ds r' ∧
    readToks r (.newline :: rest) = readToks r' rest := by
  cases h with
  | here b => exact ⟨_, .here true, rfl⟩
  | member h1 h2 => exact ⟨_, .member h1 h2, rfl⟩

theorem InObj.close {ms fs ds r} (h : InObj ms fs ds r) (rest : List TsTok) :
    readToks r (.punct '}' :: rest) = readToks ⟨fs, some (.obj ms), false, ds⟩ rest := by
  cases h with
  | here b => rfl
  | member h1 h2 => subst h2; simp [readToks, readStep, afterType, h1]

/-- Members one after the other. -/
theorem read_members {α : Type} {toks : α → List TsTok} {mem : α → TsKey × TsTy} {fs : List Inside} {ds : List (Str × TsTy)} :
    ∀ (l : List α), (∀ a ∈ l, ∀ ms r rest, InObj ms fs ds r → ∃ r', InObj (ms ++ [mem a]) fs ds r' ∧
      readToks r (toks a ++ rest) = readToks r' rest) →
    ∀ ms r rest, InObj ms fs ds r → ∃ r', InObj (ms ++ l.map mem) fs ds r' ∧
      readToks r (l.flatMap toks ++ rest) = readToks r' rest
  | [], _, ms, r, rest, hr => ⟨r, by simpa using hr, rfl⟩
  | a :: l, h, ms, r, rest, hr => by
    obtain ⟨r1, h1, e1⟩ := h a (by simp) ms r (l.flatMap toks ++ rest) hr
    obtain ⟨r2, h2, e2⟩ := read_members l (fun b hb => h b (by simp [hb])) _ r1 rest h1
    refine ⟨r2, by simpa using h2, ?_⟩
    rw [List.flatMap_cons, List.append_assoc, e1, e2]

/-- Declarations one after the other. -/
theorem read_decls {α : Type} {toks : α → List TsTok} {dcl : α → Str × TsTy} {fs : List Inside} :
    ∀ (l : List α), (∀ a ∈ l, ∀ ds r rest, Ready fs ds r → ∃ r', Ready fs (ds ++ [dcl a]) r' ∧
      readToks r (toks a ++ rest) = readToks r' rest) →
    ∀ ds r rest, Ready fs ds r → ∃ r', Ready fs (ds ++ l.map dcl) r' ∧
      readToks r (l.flatMap toks ++ rest) = readToks r' rest
  | [], _, ds, r, rest, hr => ⟨r, by simpa using hr, rfl⟩
  | a :: l, h, ds, r, rest, hr => by
    obtain ⟨r1, h1, e1⟩ := h a (by simp) ds r (l.flatMap toks ++ rest) hr
    obtain ⟨r2, h2, e2⟩ := read_decls l (fun b hb => h b (by simp [hb])) _ r1 rest h1
    refine ⟨r2, by simpa using h2, ?_⟩
    rw [List.flatMap_cons, List.append_assoc, e1, e2]

/-- The elements of a tuple and its bracket. -/
theorem read_tuple {α : Type} {toks : α → List TsTok} {ty : α → TsTy} {fs : List Inside} {ds : List (Str × TsTy)} :
    ∀ (l : List α), (∀ a ∈ l, ∀ ts b rest, readToks ⟨.tuple ts :: fs, none, b, ds⟩ (toks a ++ rest) =
      readToks ⟨.tuple ts :: fs, some (ty a), false, ds⟩ rest) →
    ∀ ts b rest, readToks ⟨.tuple ts :: fs, none, b, ds⟩ (commas (l.map toks) ++ .punct ']' :: rest) =
      readToks ⟨fs, some (.tuple (ts ++ l.map ty)), false, ds⟩ rest
  | [], _, ts, b, rest => by
    simp only [List.map_nil, commas, List.nil_append, List.append_nil]
    rfl
  | [a], h, ts, b, rest => by
    simp only [List.map_cons, List.map_nil, commas]
    rw [h a (by simp)]
    rfl
  | a :: b' :: l, h, ts, b, rest => by
    have ih := read_tuple (b' :: l) (fun x hx => h x (by simp [hx])) (ts ++ [ty a]) false rest
    simp only [List.map_cons, commas, List.append_assoc, List.cons_append, List.nil_append] at ih ⊢
    rw [h a (by simp)]
    exact ih

theorem read_nums {fs : List Inside} {ds : List (Str × TsTy)} (l : List Nat) (ts : List TsTy) (b : Bool) (rest : List TsTok) :
    readToks ⟨.tuple ts :: fs, none, b, ds⟩ (commas (l.map fun n => [.num n]) ++ .punct ']' :: rest) =
      readToks ⟨fs, some (.tuple (ts ++ l.map .num)), false, ds⟩ rest :=
  read_tuple l (fun _ _ _ _ _ => rfl) ts b rest

end Verif.Spec
