import Verif.Model.MiniTs

/-! # The declarations of ts/util.ts, ts/lex.ts and ts/parse.ts, as expressions

`Verif.Tests.TsFiles` checks that these are what `Verif.Spec.TsSyntax` reads from the
three files.  Constraints and defaults of type parameters are left out. -/

namespace Verif.MiniTs

/-- A name of ts/util.ts, ts/lex.ts, ts/parse.ts, as a list of characters. -/
scoped macro "name!" s:str : term => do
  let cs := s.getString.toList.map fun c => Lean.Syntax.mkCharLit c
  `(([$(cs.toArray),*] : Verif.Str))

/-- A variable or a declaration without parameters (ts/util.ts:5). -/
scoped macro "var!" s:str : term => `(Exp.ref (name! $s) Exps.nil)
/-- A declaration with arguments (ts/util.ts:7). -/
scoped macro "app!" s:str es:term:max : term => `(Exp.ref (name! $s) $es)
/-- `infer x` (ts/util.ts:10). -/
scoped macro "infer!" s:str : term => `(Exp.infer (name! $s))
/-- A string (ts/util.ts:20). -/
scoped macro "str!" s:str : term => `(Exp.lit (Ty.str (name! $s)))
/-- A member `x: e` or `x?: e` (ts/lex.ts:6-9). -/
scoped macro "mem!" s:str o:term:max e:term:max es:term:max : term => `(Exps.cons (Head.member (Key.str (name! $s)) $o) $e $es)
/-- A number (ts/util.ts:28). -/
local notation "num" n:max => Exp.lit (Ty.num n)
/-- An element (ts/util.ts:13). -/
scoped infixr:60 " ;; " => Exps.cons Head.elem
/-- A spread element (ts/util.ts:13). -/
scoped infixr:60 " ..; " => Exps.cons Head.spread
/-- `true` (ts/util.ts:5). -/
local notation "yes" => Exp.lit (Ty.bool true)
/-- `false` (ts/util.ts:5). -/
local notation "no" => Exp.lit (Ty.bool false)
/-- `never` (ts/util.ts:53). -/
local notation "never" => Exp.lit Ty.never
/-- `any` (ts/util.ts:7). -/
local notation "any" => Exp.lit Ty.any
/-- `undefined` (ts/util.ts:39). -/
local notation "undefined" => Exp.lit Ty.undef
/-- `string` (ts/util.ts:3). -/
local notation "string" => Exp.lit Ty.string
/-- `number` (ts/util.ts:25). -/
local notation "number" => Exp.lit Ty.number

/-- `Err` (ts/util.ts:3). -/
def util.Err : List Str × Exp :=
  ([name! "T"],
  .tmpl ((str! "error: ") ;; (var! "T") ;; .nil))

/-- `Negate` (ts/util.ts:5). -/
def util.Negate : List Str × Exp :=
  ([name! "A"],
  .cond (var! "A") yes
    no
    yes)

/-- `Reverse` (ts/util.ts:7). -/
def util.Reverse : List Str × Exp :=
  ([name! "T"],
  app! "ReverseImpl" ((var! "T") ;; (.tup .nil) ;; .nil))

/-- `ReverseImpl` (ts/util.ts:9-14). -/
def util.ReverseImpl : List Str × Exp :=
  ([name! "T", name! "State"],
  .cond (var! "T") (.tup ((infer! "A") ;; (infer! "B") ..; .nil))
    (app! "ReverseImpl" ((var! "B") ;; (.tup ((var! "A") ;; (var! "State") ..; .nil)) ;; .nil))
    (var! "State"))

/-- `Tail` (ts/util.ts:16-18). -/
def util.Tail : List Str × Exp :=
  ([name! "T"],
  .cond (var! "T") (.tup ((infer! "first") ..; (infer! "rest") ..; .nil))
    (var! "rest")
    (.tup .nil))

/-- `IsWhitespace` (ts/util.ts:20-22). -/
def util.IsWhitespace : List Str × Exp :=
  ([name! "T"],
  .cond (var! "T") (.union ((str! " ") ;; (str! "\n") ;; .nil))
    yes
    no)

/-- `Substring` (ts/util.ts:24-28). -/
def util.Substring : List Str × Exp :=
  ([name! "str", name! "start", name! "end"],
  app! "SubstringImpl" ((var! "str") ;; (var! "start") ;; (var! "end") ;; (num 0) ;; .nil))

/-- `SubstringImpl` (ts/util.ts:30-39). -/
def util.SubstringImpl : List Str × Exp :=
  ([name! "str", name! "start", name! "end", name! "iStart"],
  .cond (var! "iStart") (var! "start")
    (app! "CutString" ((var! "str") ;; (str! "") ;; (var! "end") ;; (num 0) ;; .nil))
    (.cond (var! "str") (.tmpl ((infer! "_char") ;; (infer! "rest") ;; .nil))
      (app! "SubstringImpl" ((var! "rest") ;; (var! "start") ;; (app! "Pred" ((var! "end") ;; .nil)) ;; (app! "Succ" ((var! "iStart") ;; .nil)) ;; .nil))
      undefined))

/-- `CutString` (ts/util.ts:41-50). -/
def util.CutString : List Str × Exp :=
  ([name! "str", name! "ret", name! "len", name! "i"],
  .cond (var! "i") (var! "len")
    (var! "ret")
    (.cond (var! "str") (.tmpl ((infer! "char") ;; (infer! "rest") ;; .nil))
      (app! "CutString" ((var! "rest") ;; (.tmpl ((var! "ret") ;; (var! "char") ;; .nil)) ;; (var! "len") ;; (app! "Succ" ((var! "i") ;; .nil)) ;; .nil))
      (var! "ret")))

/-- `Eq` (ts/util.ts:52). -/
def util.Eq : List Str × Exp :=
  ([name! "A", name! "B"],
  .cond (var! "A") (var! "B")
    yes
    no)

/-- `Succ` (ts/util.ts:53). -/
def util.Succ : List Str × Exp :=
  ([name! "T"],
  .cond (var! "T") (.keyof (var! "SuccTable"))
    (.idx (var! "SuccTable") (var! "T"))
    never)

/-- `Pred` (ts/util.ts:54-58). -/
def util.Pred : List Str × Exp :=
  ([name! "T"],
  .cond (var! "T") (num 0)
    (num 0)
    (.cond (var! "T") (.keyof (var! "PredTable"))
      (.idx (var! "PredTable") (var! "T"))
      never))

/-- `Gte` (ts/util.ts:60-62). -/
def util.Gte : List Str × Exp :=
  ([name! "A", name! "B"],
  .cond (var! "A") (var! "B")
    yes
    (app! "GtImpl" ((var! "A") ;; (var! "B") ;; .nil)))

/-- `Gt` (ts/util.ts:63-65). -/
def util.Gt : List Str × Exp :=
  ([name! "A", name! "B"],
  .cond (var! "A") (var! "B")
    no
    (app! "GtImpl" ((var! "A") ;; (var! "B") ;; .nil)))

/-- `Lte` (ts/util.ts:67-69). -/
def util.Lte : List Str × Exp :=
  ([name! "A", name! "B"],
  .cond (var! "A") (var! "B")
    yes
    (app! "Negate" ((app! "GtImpl" ((var! "A") ;; (var! "B") ;; .nil)) ;; .nil)))

/-- `Lt` (ts/util.ts:70-72). -/
def util.Lt : List Str × Exp :=
  ([name! "A", name! "B"],
  .cond (var! "A") (var! "B")
    no
    (app! "Negate" ((app! "GtImpl" ((var! "A") ;; (var! "B") ;; .nil)) ;; .nil)))

/-- `GtImpl` (ts/util.ts:75-79). -/
def util.GtImpl : List Str × Exp :=
  ([name! "A", name! "B"],
  .cond (var! "B") (num 0)
    yes
    (.cond (var! "A") (num 0)
      no
      (app! "GtImpl" ((app! "Pred" ((var! "A") ;; .nil)) ;; (app! "Pred" ((var! "B") ;; .nil)) ;; .nil))))

/-- `Add` (ts/util.ts:81-83). -/
def util.Add : List Str × Exp :=
  ([name! "A", name! "B"],
  .cond (var! "B") (num 0)
    (var! "A")
    (app! "Add" ((app! "Succ" ((var! "A") ;; .nil)) ;; (app! "Pred" ((var! "B") ;; .nil)) ;; .nil)))

/-- `Sub` (ts/util.ts:85-87). -/
def util.Sub : List Str × Exp :=
  ([name! "A", name! "B"],
  .cond (var! "B") (num 0)
    (var! "A")
    (app! "Sub" ((app! "Pred" ((var! "A") ;; .nil)) ;; (app! "Pred" ((var! "B") ;; .nil)) ;; .nil)))

/-- `PopNStack` (ts/util.ts:89-93). -/
def util.PopNStack : List Str × Exp :=
  ([name! "arr", name! "n"],
  .cond (var! "n") (num 0)
    (var! "arr")
    (.cond (var! "arr") (.tup ((infer! "head") ;; (infer! "tail") ..; .nil))
      (app! "PopNStack" ((var! "tail") ;; (app! "Pred" ((var! "n") ;; .nil)) ;; .nil))
      never))

/-- `PopNStackWithValue` (ts/util.ts:95-98). -/
def util.PopNStackWithValue : List Str × Exp :=
  ([name! "arr", name! "n"],
  app! "PopNStackWithValueImpl" ((var! "arr") ;; (var! "n") ;; (.tup .nil) ;; .nil))

/-- `PopNStackWithValueImpl` (ts/util.ts:99-107). -/
def util.PopNStackWithValueImpl : List Str × Exp :=
  ([name! "arr", name! "n", name! "ret"],
  .cond (var! "n") (num 0)
    (.tup ((var! "arr") ;; (var! "ret") ;; .nil))
    (.cond (var! "arr") (.tup ((infer! "head") ;; (infer! "tail") ..; .nil))
      (app! "PopNStackWithValueImpl" ((var! "tail") ;; (app! "Pred" ((var! "n") ;; .nil)) ;; (.tup ((var! "head") ;; (var! "ret") ..; .nil)) ;; .nil))
      never))

/-- `CharRange` (ts/lex.ts:6-9). -/
def lex.CharRange : List Str × Exp :=
  ([],
  .obj (mem! "from" false number (mem! "to" false number .nil)))

/-- `SingleCharRange` (ts/lex.ts:11-14). -/
def lex.SingleCharRange : List Str × Exp :=
  ([name! "T"],
  .obj (mem! "from" false (.idx (var! "CharTable") (var! "T")) (mem! "to" false (app! "U.Succ" ((.idx (var! "CharTable") (var! "T")) ;; .nil)) .nil)))

/-- `State` (ts/lex.ts:16-20). -/
def lex.State : List Str × Exp :=
  ([],
  .obj (mem! "to" false (.arr number) (mem! "labels" false (.arr (var! "CharRange")) (mem! "accepting" true (.union (yes ;; no ;; .nil)) .nil))))

/-- `TokenDef` (ts/lex.ts:22-25). -/
def lex.TokenDef : List Str × Exp :=
  ([],
  .obj (mem! "kind" false string (mem! "hasValue" false (.union (yes ;; no ;; .nil)) .nil)))

/-- `Token` (ts/lex.ts:27-30). -/
def lex.Token : List Str × Exp :=
  ([],
  .obj (mem! "kind" false string (mem! "value" true string .nil)))

/-- `GetTokenDef` (ts/lex.ts:32-35). -/
def lex.GetTokenDef : List Str × Exp :=
  ([name! "dfaStateIdx"],
  .cond (var! "dfaStateIdx") (.keyof (var! "DFAtoNFA"))
    (app! "GetTokenDefImpl" ((.idx (var! "DFAtoNFA") (var! "dfaStateIdx")) ;; .nil))
    (.tmpl ((str! "invalid dfa state index: ") ;; (var! "dfaStateIdx") ;; .nil)))

/-- `GetTokenDefImpl` (ts/lex.ts:37-46). -/
def lex.GetTokenDefImpl : List Str × Exp :=
  ([name! "nfaStateArr"],
  .cond (var! "nfaStateArr") (.tup ((infer! "x") ;; (infer! "rest") ..; .nil))
    (.cond (var! "x") (.keyof (var! "Tokens"))
      (.idx (var! "Tokens") (var! "x"))
      (.cond (var! "rest") (.arr number)
        (app! "GetTokenDefImpl" ((var! "rest") ;; .nil))
        undefined))
    undefined)

/-- `TokenDefToToken` (ts/lex.ts:48-62). -/
def lex.TokenDefToToken : List Str × Exp :=
  ([name! "dfaStateIdx", name! "input", name! "lexemeBegin", name! "forward"],
  .cond (app! "GetTokenDef" ((var! "dfaStateIdx") ;; .nil)) (infer! "tokenDef")
    (.cond (var! "tokenDef") (var! "TokenDef")
      (.cond (.idx (var! "tokenDef") (str! "hasValue")) yes
        (.obj (mem! "kind" false (.idx (var! "tokenDef") (str! "kind")) (mem! "value" false (app! "U.Substring" ((var! "input") ;; (var! "lexemeBegin") ;; (app! "U.Succ" ((var! "forward") ;; .nil)) ;; .nil)) .nil)))
        (.obj (mem! "kind" false (.idx (var! "tokenDef") (str! "kind")) .nil)))
      never)
    never)

/-- `RangeContains` (ts/lex.ts:64-69). -/
def lex.RangeContains : List Str × Exp :=
  ([name! "range", name! "labelIdx"],
  .cond (.tup ((app! "U.Gte" ((var! "labelIdx") ;; (.idx (var! "range") (str! "from")) ;; .nil)) ;; (app! "U.Lt" ((var! "labelIdx") ;; (.idx (var! "range") (str! "to")) ;; .nil)) ;; .nil)) (.tup (yes ;; yes ;; .nil))
    yes
    no)

/-- `NextState` (ts/lex.ts:71-81). -/
def lex.NextState : List Str × Exp :=
  ([name! "label", name! "state", name! "i"],
  .cond (.idx (.idx (var! "state") (str! "labels")) (var! "i")) (var! "CharRange")
    (.cond (app! "RangeContains" ((.idx (.idx (var! "state") (str! "labels")) (var! "i")) ;; (var! "label") ;; .nil)) yes
      (.idx (.idx (var! "state") (str! "to")) (var! "i"))
      (.cond (var! "i") number
        (app! "NextState" ((var! "label") ;; (var! "state") ;; (app! "U.Succ" ((var! "i") ;; .nil)) ;; .nil))
        (str! "unreachable: `i` should always be a number")))
    undefined)

/-- `StateAccepts` (ts/lex.ts:83-85). -/
def lex.StateAccepts : List Str × Exp :=
  ([name! "state"],
  .cond (.idx (var! "state") (str! "accepting")) yes
    yes
    no)

/-- `StringToCharList` (ts/lex.ts:87-96). -/
def lex.StringToCharList : List Str × Exp :=
  ([name! "input", name! "ret"],
  .cond (var! "input") (str! "")
    (app! "U.Reverse" ((var! "ret") ;; .nil))
    (.cond (var! "input") (.tmpl ((infer! "char") ;; (infer! "rest") ;; .nil))
      (.cond (var! "char") (.idx (var! "Characters") (.keyof (var! "Characters")))
        (app! "StringToCharList" ((var! "rest") ;; (.tup ((var! "char") ;; (var! "ret") ..; .nil)) ;; .nil))
        (.tmpl ((str! "invalid char: ") ;; (var! "char") ;; .nil)))
      (app! "U.Reverse" ((var! "ret") ;; .nil))))

/-- `LexImpl` (ts/lex.ts:98-176). -/
def lex.LexImpl : List Str × Exp :=
  ([name! "inputStr", name! "fullInput", name! "stateIdx", name! "tokens", name! "lexemeBegin", name! "forward", name! "charBuf", name! "lastAcceptingState"],
  .cond (.idx (var! "fullInput") (var! "forward")) (.tmpl ((infer! "char") ;; .nil))
    (.cond (var! "char") (.idx (var! "Characters") (.keyof (var! "Characters")))
      (.cond (app! "NextState" ((.idx (var! "CharTable") (var! "char")) ;; (.idx (var! "States") (var! "stateIdx")) ;; (num 0) ;; .nil)) (infer! "maybeNewStateIdx")
        (.cond (var! "maybeNewStateIdx") number
          (app! "LexImpl" ((var! "inputStr") ;; (var! "fullInput") ;; (var! "maybeNewStateIdx") ;; (var! "tokens") ;; (var! "lexemeBegin") ;; (app! "U.Succ" ((var! "forward") ;; .nil)) ;; (var! "charBuf") ;; (.cond (app! "StateAccepts" ((.idx (var! "States") (var! "maybeNewStateIdx")) ;; .nil)) yes
            (.tup ((var! "forward") ;; (var! "maybeNewStateIdx") ;; .nil))
            (var! "lastAcceptingState")) ;; .nil))
          (.cond (var! "lastAcceptingState") (.tup (number ;; number ;; .nil))
            (.cond (.idx (var! "lastAcceptingState") (num 1)) (.keyof (var! "DFAtoNFA"))
              (app! "LexImpl" ((var! "inputStr") ;; (var! "fullInput") ;; (num 0) ;; (.tup ((app! "TokenDefToToken" ((.idx (var! "lastAcceptingState") (num 1)) ;; (var! "inputStr") ;; (var! "lexemeBegin") ;; (.idx (var! "lastAcceptingState") (num 0)) ;; .nil)) ;; (var! "tokens") ..; .nil)) ;; (app! "U.Succ" ((.idx (var! "lastAcceptingState") (num 0)) ;; .nil)) ;; (app! "U.Succ" ((.idx (var! "lastAcceptingState") (num 0)) ;; .nil)) ;; (var! "charBuf") ;; undefined ;; .nil))
              (str! "unreachable: accepting state idx should always be a keyof Tokens"))
            (.cond (.tup ((app! "U.IsWhitespace" ((var! "char") ;; .nil)) ;; (app! "U.Eq" ((var! "forward") ;; (var! "lexemeBegin") ;; .nil)) ;; .nil)) (.tup (yes ;; yes ;; .nil))
              (app! "LexImpl" ((var! "inputStr") ;; (var! "fullInput") ;; (var! "stateIdx") ;; (var! "tokens") ;; (app! "U.Succ" ((var! "lexemeBegin") ;; .nil)) ;; (app! "U.Succ" ((var! "forward") ;; .nil)) ;; (var! "charBuf") ;; (var! "lastAcceptingState") ;; .nil))
              (.tup ((var! "tokens") ;; (var! "lastAcceptingState") ;; (var! "lexemeBegin") ;; (.tmpl ((str! "invalid symbol: `") ;; (var! "char") ;; (str! "` at index ") ;; (var! "forward") ;; .nil)) ;; .nil)))))
        (str! "unreachable: inferring `maybeNewStateIdx` should always work"))
      (.tmpl ((str! "invalid char: ") ;; (var! "char") ;; .nil)))
    (.tup ((var! "tokens") ;; (var! "lastAcceptingState") ;; (var! "lexemeBegin") ;; undefined ;; .nil)))

/-- `Lex` (ts/lex.ts:178-218). -/
def lex.Lex : List Str × Exp :=
  ([name! "fullInput"],
  .cond (app! "LexImpl" ((var! "fullInput") ;; (app! "StringToCharList" ((var! "fullInput") ;; (.tup .nil) ;; .nil)) ;; (num 0) ;; (.tup .nil) ;; (num 0) ;; (num 0) ;; (.tup .nil) ;; undefined ;; .nil)) (.tup ((infer! "tokens") ;; (infer! "lastAcceptingState") ;; (infer! "lexemeBegin") ;; (infer! "error") ;; .nil))
    (.cond (var! "error") string
      (var! "error")
      (.cond (var! "lastAcceptingState") (.tup (number ;; number ;; .nil))
        (.cond (var! "tokens") (.arr any)
          (.cond (.idx (var! "lastAcceptingState") (num 1)) number
            (.cond (var! "lexemeBegin") number
              (app! "U.Reverse" ((.tup ((.obj (mem! "kind" false (str! "EOF") .nil)) ;; (app! "TokenDefToToken" ((.idx (var! "lastAcceptingState") (num 1)) ;; (var! "fullInput") ;; (var! "lexemeBegin") ;; (.idx (var! "lastAcceptingState") (num 0)) ;; .nil)) ;; (var! "tokens") ..; .nil)) ;; .nil))
              (str! "unreachable: `lexemeBegin` begin should always be a number"))
            (var! "lastAcceptingState"))
          (str! "unreachable: tokens should be an array"))
        (.cond (var! "tokens") (.arr any)
          (app! "U.Reverse" ((.tup ((.obj (mem! "kind" false (str! "EOF") .nil)) ;; (var! "tokens") ..; .nil)) ;; .nil))
          (str! "unreachable: tokens should be an array"))))
    (str! "unreachable: inferring `tokens` and `lastAcceptingState` should always work"))

/-- `GetAction` (ts/parse.ts:5-12). -/
def parse.GetAction : List Str × Exp :=
  ([name! "top", name! "a"],
  .cond (var! "top") (.keyof (var! "type_defs.Action"))
    (.cond (var! "a") (.keyof (.idx (var! "type_defs.Action") (var! "top")))
      (.idx (.idx (var! "type_defs.Action") (var! "top")) (var! "a"))
      (str! "error: `a` is not a key in `Action[top]`"))
    (str! "error: `top` is not a key in `Action`"))

/-- `GetGoto` (ts/parse.ts:14-21). -/
def parse.GetGoto : List Str × Exp :=
  ([name! "stateIdx", name! "productionName"],
  .cond (var! "stateIdx") (.keyof (var! "type_defs.Goto"))
    (.cond (var! "productionName") (.keyof (.idx (var! "type_defs.Goto") (var! "stateIdx")))
      (.idx (.idx (var! "type_defs.Goto") (var! "stateIdx")) (var! "productionName"))
      (str! "error: `productionName` is not a key in `Goto[stateIdx]`"))
    (.tmpl ((str! "error: `stateIdx` is not a key in `Goto` (stateIdx=") ;; (var! "stateIdx") ;; (str! ")") ;; .nil)))

/-- `NextToken` (ts/parse.ts:23-35). -/
def parse.NextToken : List Str × Exp :=
  ([name! "a", name! "i", name! "input"],
  .cond (app! "U.Succ" ((var! "i") ;; .nil)) (infer! "iPlusOne")
    (.cond (var! "iPlusOne") number
      (.cond (app! "U.Lt" ((var! "iPlusOne") ;; (.idx (var! "input") (str! "length")) ;; .nil)) yes
        (.cond (var! "iPlusOne") (.keyof (var! "input"))
          (.tup ((.idx (var! "input") (var! "iPlusOne")) ;; (var! "iPlusOne") ;; .nil))
          (.tmpl ((str! "error: input idx out of range (") ;; (var! "iPlusOne") ;; (str! ">=") ;; (.idx (var! "input") (str! "length")) ;; (str! ")") ;; .nil)))
        (.tup ((var! "a") ;; (var! "i") ;; .nil)))
      (.tmpl ((str! "error: incrementing `i` result is not a number (i=") ;; (var! "i") ;; (str! ")") ;; .nil)))
    (.tmpl ((str! "error: incrementing `i` (") ;; (var! "i") ;; (str! ")") ;; .nil)))

/-- `TokenIndices` (ts/parse.ts:37-44). -/
def parse.TokenIndices : List Str × Exp :=
  ([name! "toks"],
  .cond (app! "TokenIndicesImpl" ((var! "toks") ;; (.tup .nil) ;; .nil)) (infer! "ret")
    (.cond (var! "ret") (.arr number)
      (app! "U.Reverse" ((var! "ret") ;; .nil))
      (var! "ret"))
    (str! "unreachable: inferring `ret` never fails"))

/-- `TokenIndicesImpl` (ts/parse.ts:45-59). -/
def parse.TokenIndicesImpl : List Str × Exp :=
  ([name! "toks", name! "ret"],
  .cond (var! "toks") (.tup ((infer! "head") ;; (infer! "tail") ..; .nil))
    (.cond (var! "head") (var! "L.Token")
      (.cond (.idx (var! "head") (str! "kind")) (.keyof (var! "type_defs.TokenKindToIdx"))
        (.cond (var! "tail") (.arr (var! "L.Token"))
          (app! "TokenIndicesImpl" ((var! "tail") ;; (.tup ((.idx (var! "type_defs.TokenKindToIdx") (.idx (var! "head") (str! "kind"))) ;; (var! "ret") ..; .nil)) ;; .nil))
          (str! "unreachable: tail should always be L.Token[]"))
        (.tmpl ((str! "error: head['kind'] is not a valid token kind: ") ;; (.idx (var! "head") (str! "kind")) ;; .nil)))
      (str! "error: `head` is not a lexer token"))
    (var! "ret"))

/-- `ParseImplShift` (ts/parse.ts:61-86). -/
def parse.ParseImplShift : List Str × Exp :=
  ([name! "newStateIdx", name! "tokenInputs", name! "input", name! "stack", name! "i", name! "a", name! "symbolStack", name! "maxRecursionDepth"],
  .cond (app! "NextToken" ((var! "a") ;; (var! "i") ;; (var! "input") ;; .nil)) (.inferExt (name! "nextTok") (.tup (number ;; number ;; .nil)))
    (app! "ParseImpl" ((var! "tokenInputs") ;; (var! "input") ;; (.tup ((var! "newStateIdx") ;; (var! "stack") ..; .nil)) ;; (.idx (var! "nextTok") (num 1)) ;; (.idx (var! "nextTok") (num 0)) ;; (.tup ((.obj (mem! "kind" false (str! "token") (mem! "token" false (.idx (var! "tokenInputs") (var! "i")) (mem! "lmao" false (var! "newStateIdx") .nil)))) ;; (var! "symbolStack") ..; .nil)) ;; (app! "U.Pred" ((var! "maxRecursionDepth") ;; .nil)) ;; .nil))
    (str! "error: todo fill this out"))

/-- `ParseImplReduce` (ts/parse.ts:88-126). -/
def parse.ParseImplReduce : List Str × Exp :=
  ([name! "ruleIdx", name! "production", name! "tokenInputs", name! "input", name! "stack", name! "i", name! "a", name! "symbolStack", name! "maxRecursionDepth"],
  .cond (app! "U.PopNStack" ((var! "stack") ;; (.idx (.idx (var! "production") (str! "tokens")) (str! "length")) ;; .nil)) (infer! "newStack")
    (.cond (var! "newStack") (.tup (number ;; (infer! "newRestOfStack") ..; .nil))
      (.cond (app! "GetGoto" ((.idx (var! "newStack") (num 0)) ;; (.idx (var! "production") (str! "name")) ;; .nil)) (.inferExt (name! "goto_ta") number)
        (.cond (var! "newRestOfStack") (.arr number)
          (.cond (app! "actions.EmitProduction" ((var! "ruleIdx") ;; (var! "symbolStack") ;; .nil)) (.inferExt (name! "newSymbolStack") (.arr (var! "type_defs.Symbol")))
            (app! "ParseImpl" ((var! "tokenInputs") ;; (var! "input") ;; (.tup ((var! "goto_ta") ;; (.idx (var! "newStack") (num 0)) ;; (var! "newRestOfStack") ..; .nil)) ;; (var! "i") ;; (var! "a") ;; (var! "newSymbolStack") ;; (app! "U.Pred" ((var! "maxRecursionDepth") ;; .nil)) ;; .nil))
            (.tup ((.tmpl ((str! "error state=") ;; (.idx (var! "stack") (num 0)) ;; (str! " a=") ;; (var! "a") ;; .nil)) ;; (app! "actions.EmitProduction" ((var! "ruleIdx") ;; (var! "symbolStack") ;; .nil)) ;; (var! "symbolStack") ;; .nil)))
          (str! "unreachable: `newRestOfStack` should always be a number[]"))
        (str! "not good"))
      (str! "unreachable: `newStack` is always a number"))
    (str! "unreachable: inferring `newStack` never fails"))

/-- `ParseImpl` (ts/parse.ts:128-171). -/
def parse.ParseImpl : List Str × Exp :=
  ([name! "tokenInputs", name! "input", name! "stack", name! "i", name! "a", name! "symbolStack", name! "maxRecursionDepth"],
  .cond (var! "maxRecursionDepth") (num 0)
    (str! "exceeded max recursion depth")
    (.cond (var! "stack") (.tup ((infer! "top") ;; (infer! "_restOfStack") ..; .nil))
      (.cond (app! "GetAction" ((var! "top") ;; (var! "a") ;; .nil)) (infer! "action")
        (.cond (var! "action") (.obj (mem! "shift" false number .nil))
          (app! "ParseImplShift" ((.idx (var! "action") (str! "shift")) ;; (var! "tokenInputs") ;; (var! "input") ;; (var! "stack") ;; (var! "i") ;; (var! "a") ;; (var! "symbolStack") ;; (var! "maxRecursionDepth") ;; .nil))
          (.cond (var! "action") (.obj (mem! "reduce" false (infer! "ruleIdx") .nil))
            (.cond (var! "ruleIdx") (.keyof (var! "type_defs.Productions"))
              (.cond (.idx (var! "type_defs.Productions") (var! "ruleIdx")) (.inferExt (name! "production") (var! "type_defs.Production"))
                (app! "ParseImplReduce" ((var! "ruleIdx") ;; (var! "production") ;; (var! "tokenInputs") ;; (var! "input") ;; (var! "stack") ;; (var! "i") ;; (var! "a") ;; (var! "symbolStack") ;; (var! "maxRecursionDepth") ;; .nil))
                (str! "unreachable: `Productions[ruleIdx]` is not a production"))
              (str! "error: `ruleIdx` is not a key in `Productions`"))
            (.cond (var! "action") (.obj (mem! "accept" false yes .nil))
              (var! "symbolStack")
              (.tup ((.tmpl ((str! "error: invalid token ") ;; (var! "a") ;; .nil)) ;; (var! "symbolStack") ;; .nil)))))
        (str! "unreachable: inferring `action` should never fail"))
      (str! "error: stack is empty")))

/-- `Parse` (ts/parse.ts:173-180). -/
def parse.Parse : List Str × Exp :=
  ([name! "tokenInputs"],
  .cond (app! "TokenIndices" ((var! "tokenInputs") ;; .nil)) (infer! "input")
    (.cond (var! "input") (.arr number)
      (app! "ParseImpl" ((var! "tokenInputs") ;; (var! "input") ;; (.tup ((num 0) ;; .nil)) ;; (num 0) ;; (.idx (var! "input") (num 0)) ;; (.tup .nil) ;; (num 50) ;; .nil))
      (.cond (var! "input") string
        (var! "input")
        (str! "error: `input` should always be a number[] or string")))
    (str! "unreachable: inferring `input` never fails"))

/-- `tokens` (ts/parse.ts:182). -/
def parse.tokens : List Str × Exp :=
  ([],
  app! "L.Lex" ((str! "(add 34 35)") ;; .nil))

/-- `ast` (ts/parse.ts:183). -/
def parse.ast : List Str × Exp :=
  ([],
  app! "Parse" ((var! "tokens") ;; .nil))

/-- ts/util.ts:1-107. -/
def utilDecls : List (Str × List Str × Exp) :=
  [(name! "Err", util.Err),
   (name! "Negate", util.Negate),
   (name! "Reverse", util.Reverse),
   (name! "ReverseImpl", util.ReverseImpl),
   (name! "Tail", util.Tail),
   (name! "IsWhitespace", util.IsWhitespace),
   (name! "Substring", util.Substring),
   (name! "SubstringImpl", util.SubstringImpl),
   (name! "CutString", util.CutString),
   (name! "Eq", util.Eq),
   (name! "Succ", util.Succ),
   (name! "Pred", util.Pred),
   (name! "Gte", util.Gte),
   (name! "Gt", util.Gt),
   (name! "Lte", util.Lte),
   (name! "Lt", util.Lt),
   (name! "GtImpl", util.GtImpl),
   (name! "Add", util.Add),
   (name! "Sub", util.Sub),
   (name! "PopNStack", util.PopNStack),
   (name! "PopNStackWithValue", util.PopNStackWithValue),
   (name! "PopNStackWithValueImpl", util.PopNStackWithValueImpl)]

/-- ts/lex.ts:1-218. -/
def lexDecls : List (Str × List Str × Exp) :=
  [(name! "CharRange", lex.CharRange),
   (name! "SingleCharRange", lex.SingleCharRange),
   (name! "State", lex.State),
   (name! "TokenDef", lex.TokenDef),
   (name! "Token", lex.Token),
   (name! "GetTokenDef", lex.GetTokenDef),
   (name! "GetTokenDefImpl", lex.GetTokenDefImpl),
   (name! "TokenDefToToken", lex.TokenDefToToken),
   (name! "RangeContains", lex.RangeContains),
   (name! "NextState", lex.NextState),
   (name! "StateAccepts", lex.StateAccepts),
   (name! "StringToCharList", lex.StringToCharList),
   (name! "LexImpl", lex.LexImpl),
   (name! "Lex", lex.Lex)]

/-- ts/parse.ts:1-183. -/
def parseDecls : List (Str × List Str × Exp) :=
  [(name! "GetAction", parse.GetAction),
   (name! "GetGoto", parse.GetGoto),
   (name! "NextToken", parse.NextToken),
   (name! "TokenIndices", parse.TokenIndices),
   (name! "TokenIndicesImpl", parse.TokenIndicesImpl),
   (name! "ParseImplShift", parse.ParseImplShift),
   (name! "ParseImplReduce", parse.ParseImplReduce),
   (name! "ParseImpl", parse.ParseImpl),
   (name! "Parse", parse.Parse),
   (name! "tokens", parse.tokens),
   (name! "ast", parse.ast)]

end Verif.MiniTs
