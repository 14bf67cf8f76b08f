import Verif.Model.TsFiles
import Verif.Spec.TsSyntax

/-! # The text of ts/util.ts, ts/lex.ts and ts/parse.ts

The three files, line by line.  `Verif.Spec.TsSyntax` reads from them the declarations
of `Verif.Model.TsFiles`. -/

namespace Verif.Tests.TsFiles
open Verif MiniTs

/-- A line, as a list of characters. -/
local macro "line!" s:str : term => do
  let cs := (s.getString ++ "\n").toList.map fun c => Lean.Syntax.mkCharLit c
  `(([$(cs.toArray),*] : Verif.Str))

/-- ts/util.ts:1-107. -/
def utilText : List Str := [
  line! "import { SuccTable, PredTable } from \"./arith_table.gen\";",
  line! "",
  line! "export type Err<T extends string> = `error: ${T}`;",
  line! "",
  line! "export type Negate<A extends boolean> = A extends true ? false : true;",
  line! "",
  line! "export type Reverse<T extends any[]> = ReverseImpl<T, []>;",
  line! "",
  line! "type ReverseImpl<T extends any[], State extends any[] = []> = T extends [",
  line! "  infer A,",
  line! "  ...infer B",
  line! "]",
  line! "  ? ReverseImpl<B, [A, ...State]>",
  line! "  : State;",
  line! "",
  line! "export type Tail<T extends any[]> = T extends [...infer first, ...infer rest]",
  line! "  ? rest",
  line! "  : [];",
  line! "",
  line! "export type IsWhitespace<T extends string> = T extends \" \" | \"\\n\"",
  line! "  ? true",
  line! "  : false;",
  line! "",
  line! "export type Substring<",
  line! "  str extends string,",
  line! "  start extends number,",
  line! "  end extends number",
  line! "> = SubstringImpl<str, start, end, 0>;",
  line! "",
  line! "type SubstringImpl<",
  line! "  str extends string,",
  line! "  start extends number,",
  line! "  end extends number,",
  line! "  iStart extends number",
  line! "> = iStart extends start",
  line! "  ? CutString<str, \"\", end, 0>",
  line! "  : str extends `${infer _char}${infer rest}`",
  line! "  ? SubstringImpl<rest, start, Pred<end>, Succ<iStart>>",
  line! "  : undefined;",
  line! "",
  line! "type CutString<",
  line! "  str extends string,",
  line! "  ret extends string,",
  line! "  len extends number,",
  line! "  i extends number",
  line! "> = i extends len",
  line! "  ? ret",
  line! "  : str extends `${infer char}${infer rest}`",
  line! "  ? CutString<rest, `${ret}${char}`, len, Succ<i>>",
  line! "  : ret;",
  line! "",
  line! "export type Eq<A extends number, B extends number> = A extends B ? true : false;",
  line! "export type Succ<T> = T extends keyof SuccTable ? SuccTable[T] : never;",
  line! "export type Pred<T> = T extends 0",
  line! "  ? 0",
  line! "  : T extends keyof PredTable",
  line! "  ? PredTable[T]",
  line! "  : never;",
  line! "",
  line! "export type Gte<A extends B, B extends number> = A extends B",
  line! "  ? true",
  line! "  : GtImpl<A, B>;",
  line! "export type Gt<A extends B, B extends number> = A extends B",
  line! "  ? false",
  line! "  : GtImpl<A, B>;",
  line! "",
  line! "export type Lte<A extends B, B extends number> = A extends B",
  line! "  ? true",
  line! "  : Negate<GtImpl<A, B>>;",
  line! "export type Lt<A extends B, B extends number> = A extends B",
  line! "  ? false",
  line! "  : Negate<GtImpl<A, B>>;",
  line! "",
  line! "// A > B",
  line! "export type GtImpl<A extends number, B extends number> = B extends 0",
  line! "  ? true",
  line! "  : A extends 0",
  line! "  ? false",
  line! "  : GtImpl<Pred<A>, Pred<B>>;",
  line! "",
  line! "export type Add<A extends number, B extends number> = B extends 0",
  line! "  ? A",
  line! "  : Add<Succ<A>, Pred<B>>;",
  line! "// Only works if B <= A",
  line! "export type Sub<A extends number, B extends number> = B extends 0",
  line! "  ? A",
  line! "  : Sub<Pred<A>, Pred<B>>;",
  line! "",
  line! "export type PopNStack<arr extends any[], n extends number> = n extends 0",
  line! "  ? arr",
  line! "  : arr extends [infer head, ...infer tail]",
  line! "  ? PopNStack<tail, Pred<n>>",
  line! "  : never;",
  line! "",
  line! "export type PopNStackWithValue<",
  line! "  arr extends any[],",
  line! "  n extends number",
  line! "> = PopNStackWithValueImpl<arr, n, []>;",
  line! "type PopNStackWithValueImpl<",
  line! "  arr extends any[],",
  line! "  n extends number,",
  line! "  ret extends any[]",
  line! "> = n extends 0",
  line! "  ? [arr, ret]",
  line! "  : arr extends [infer head, ...infer tail]",
  line! "  ? PopNStackWithValueImpl<tail, Pred<n>, [head, ...ret]>",
  line! "  : never;"]

/-- ts/lex.ts:1-218. -/
def lexText : List Str := [
  line! "import { Characters, CharTable } from \"./chars\";",
  line! "// import { States, Tokens, DFAtoNFA } from \"./lex_state.gen\";",
  line! "import { States, Tokens, DFAtoNFA } from \"./lex_state.gen\";",
  line! "import * as U from \"./util\";",
  line! "",
  line! "export type CharRange = {",
  line! "  from: number;",
  line! "  to: number;",
  line! "};",
  line! "",
  line! "export type SingleCharRange<T extends keyof CharTable> = {",
  line! "  from: CharTable[T];",
  line! "  to: U.Succ<CharTable[T]>;",
  line! "};",
  line! "",
  line! "export type State = {",
  line! "  to: number[];",
  line! "  labels: CharRange[];",
  line! "  accepting?: boolean;",
  line! "};",
  line! "",
  line! "export type TokenDef = {",
  line! "  kind: string;",
  line! "  hasValue: boolean;",
  line! "};",
  line! "",
  line! "export type Token = {",
  line! "  kind: string;",
  line! "  value?: string;",
  line! "};",
  line! "",
  line! "type GetTokenDef<dfaStateIdx extends number> =",
  line! "  dfaStateIdx extends keyof DFAtoNFA",
  line! "    ? GetTokenDefImpl<DFAtoNFA[dfaStateIdx]>",
  line! "    : `invalid dfa state index: ${dfaStateIdx}`;",
  line! "",
  line! "type GetTokenDefImpl<nfaStateArr extends number[]> = nfaStateArr extends [",
  line! "  infer x,",
  line! "  ...infer rest",
  line! "]",
  line! "  ? x extends keyof Tokens",
  line! "    ? Tokens[x]",
  line! "    : rest extends number[]",
  line! "    ? GetTokenDefImpl<rest>",
  line! "    : undefined",
  line! "  : undefined;",
  line! "",
  line! "type TokenDefToToken<",
  line! "  dfaStateIdx extends number,",
  line! "  input extends string,",
  line! "  lexemeBegin extends number,",
  line! "  forward extends number",
  line! "> = GetTokenDef<dfaStateIdx> extends infer tokenDef",
  line! "  ? tokenDef extends TokenDef",
  line! "    ? tokenDef[\"hasValue\"] extends true",
  line! "      ? {",
  line! "          kind: tokenDef[\"kind\"];",
  line! "          value: U.Substring<input, lexemeBegin, U.Succ<forward>>;",
  line! "        }",
  line! "      : { kind: tokenDef[\"kind\"] }",
  line! "    : never",
  line! "  : never;",
  line! "",
  line! "type RangeContains<range extends CharRange, labelIdx extends number> = [",
  line! "  U.Gte<labelIdx, range[\"from\"]>,",
  line! "  U.Lt<labelIdx, range[\"to\"]>",
  line! "] extends [true, true]",
  line! "  ? true",
  line! "  : false;",
  line! "",
  line! "type NextState<",
  line! "  label extends number,",
  line! "  state extends State,",
  line! "  i extends number",
  line! "> = state[\"labels\"][i] extends CharRange",
  line! "  ? RangeContains<state[\"labels\"][i], label> extends true",
  line! "    ? state[\"to\"][i]",
  line! "    : i extends number",
  line! "    ? NextState<label, state, U.Succ<i>>",
  line! "    : \"unreachable: `i` should always be a number\"",
  line! "  : undefined;",
  line! "",
  line! "type StateAccepts<state extends State> = state[\"accepting\"] extends true",
  line! "  ? true",
  line! "  : false;",
  line! "",
  line! "type StringToCharList<",
  line! "  input extends string,",
  line! "  ret extends string[]",
  line! "> = input extends \"\"",
  line! "  ? U.Reverse<ret>",
  line! "  : input extends `${infer char}${infer rest}`",
  line! "  ? char extends Characters[keyof Characters]",
  line! "    ? StringToCharList<rest, [char, ...ret]>",
  line! "    : `invalid char: ${char}`",
  line! "  : U.Reverse<ret>;",
  line! "",
  line! "type LexImpl<",
  line! "  inputStr extends string,",
  line! "  fullInput extends string[],",
  line! "  stateIdx extends number,",
  line! "  tokens extends Token[],",
  line! "  lexemeBegin extends number,",
  line! "  forward extends number,",
  line! "  charBuf extends string[],",
  line! "  lastAcceptingState extends [forward: number, stateIdx: number] | undefined",
  line! "> = fullInput[forward] extends `${infer char}`",
  line! "  ? char extends Characters[keyof Characters]",
  line! "    ? NextState<",
  line! "        CharTable[char],",
  line! "        States[stateIdx],",
  line! "        0",
  line! "      > extends infer maybeNewStateIdx",
  line! "      ? maybeNewStateIdx extends number",
  line! "        ? // We have a matching edge",
  line! "          LexImpl<",
  line! "            inputStr,",
  line! "            fullInput,",
  line! "            maybeNewStateIdx,",
  line! "            tokens,",
  line! "            lexemeBegin,",
  line! "            U.Succ<forward>,",
  line! "            charBuf,",
  line! "            StateAccepts<States[maybeNewStateIdx]> extends true",
  line! "              ? [forward, maybeNewStateIdx]",
  line! "              : lastAcceptingState",
  line! "          >",
  line! "        : // No matching edge",
  line! "        lastAcceptingState extends [",
  line! "            lastAcceptingIdx: number,",
  line! "            lastAcceptingStateIdx: number",
  line! "          ]",
  line! "        ? lastAcceptingState[1] extends keyof DFAtoNFA",
  line! "          ? LexImpl<",
  line! "              inputStr,",
  line! "              fullInput,",
  line! "              0,",
  line! "              [",
  line! "                TokenDefToToken<",
  line! "                  lastAcceptingState[1],",
  line! "                  inputStr,",
  line! "                  lexemeBegin,",
  line! "                  lastAcceptingState[0]",
  line! "                >,",
  line! "                ...tokens",
  line! "              ],",
  line! "              U.Succ<lastAcceptingState[0]>,",
  line! "              U.Succ<lastAcceptingState[0]>,",
  line! "              charBuf,",
  line! "              undefined",
  line! "            >",
  line! "          : \"unreachable: accepting state idx should always be a keyof Tokens\"",
  line! "        : [U.IsWhitespace<char>, U.Eq<forward, lexemeBegin>] extends [",
  line! "            true,",
  line! "            true",
  line! "          ]",
  line! "        ? LexImpl<",
  line! "            inputStr,",
  line! "            fullInput,",
  line! "            stateIdx,",
  line! "            tokens,",
  line! "            U.Succ<lexemeBegin>,",
  line! "            U.Succ<forward>,",
  line! "            charBuf,",
  line! "            lastAcceptingState",
  line! "          >",
  line! "        : // otherwise it's an invalid symbol, break",
  line! "          [",
  line! "            tokens,",
  line! "            lastAcceptingState,",
  line! "            lexemeBegin,",
  line! "            `invalid symbol: \\`${char}\\` at index ${forward}`",
  line! "          ]",
  line! "      : \"unreachable: inferring `maybeNewStateIdx` should always work\"",
  line! "    : `invalid char: ${char}`",
  line! "  : [tokens, lastAcceptingState, lexemeBegin, undefined];",
  line! "",
  line! "export type Lex<fullInput extends string> = LexImpl<",
  line! "  fullInput,",
  line! "  StringToCharList<fullInput, []>,",
  line! "  0,",
  line! "  [],",
  line! "  0,",
  line! "  0,",
  line! "  [],",
  line! "  undefined",
  line! "> extends [",
  line! "  infer tokens,",
  line! "  infer lastAcceptingState,",
  line! "  infer lexemeBegin,",
  line! "  infer error",
  line! "]",
  line! "  ? error extends string",
  line! "    ? error",
  line! "    : lastAcceptingState extends [forward: number, stateIdx: number]",
  line! "    ? tokens extends any[]",
  line! "      ? lastAcceptingState[1] extends number",
  line! "        ? lexemeBegin extends number",
  line! "          ? U.Reverse<",
  line! "              [",
  line! "                { kind: \"EOF\" },",
  line! "                // `lexemeBegin: ${lexemeBegin} forward: ${lastAcceptingState[0]}`,",
  line! "                TokenDefToToken<",
  line! "                  lastAcceptingState[1],",
  line! "                  fullInput,",
  line! "                  lexemeBegin,",
  line! "                  lastAcceptingState[0]",
  line! "                >,",
  line! "                ...tokens",
  line! "              ]",
  line! "            >",
  line! "          : \"unreachable: `lexemeBegin` begin should always be a number\"",
  line! "        : lastAcceptingState",
  line! "      : \"unreachable: tokens should be an array\"",
  line! "    : tokens extends any[]",
  line! "    ? U.Reverse<[{ kind: \"EOF\" }, ...tokens]>",
  line! "    : \"unreachable: tokens should be an array\"",
  line! "  : \"unreachable: inferring `tokens` and `lastAcceptingState` should always work\";"]

/-- ts/parse.ts:1-183. -/
def parseText : List Str := [
  line! "import { type_defs, actions } from \"./parse_state2.gen\";",
  line! "import * as U from \"./util\";",
  line! "import * as L from \"./lex\";",
  line! "",
  line! "type GetAction<",
  line! "  top extends any,",
  line! "  a extends number",
  line! "> = top extends keyof type_defs.Action",
  line! "  ? a extends keyof type_defs.Action[top]",
  line! "    ? type_defs.Action[top][a]",
  line! "    : \"error: `a` is not a key in `Action[top]`\"",
  line! "  : \"error: `top` is not a key in `Action`\";",
  line! "",
  line! "type GetGoto<",
  line! "  stateIdx extends number,",
  line! "  productionName extends string",
  line! "> = stateIdx extends keyof type_defs.Goto",
  line! "  ? productionName extends keyof type_defs.Goto[stateIdx]",
  line! "    ? type_defs.Goto[stateIdx][productionName]",
  line! "    : \"error: `productionName` is not a key in `Goto[stateIdx]`\"",
  line! "  : `error: \\`stateIdx\\` is not a key in \\`Goto\\` (stateIdx=${stateIdx})`;",
  line! "",
  line! "type NextToken<",
  line! "  a extends number,",
  line! "  i extends number,",
  line! "  input extends number[]",
  line! "> = U.Succ<i> extends infer iPlusOne",
  line! "  ? iPlusOne extends number",
  line! "    ? U.Lt<iPlusOne, input[\"length\"]> extends true",
  line! "      ? iPlusOne extends keyof input",
  line! "        ? [input[iPlusOne], iPlusOne]",
  line! "        : `error: input idx out of range (${iPlusOne}>=${input[\"length\"]})`",
  line! "      : [a, i]",
  line! "    : `error: incrementing \\`i\\` result is not a number (i=${i})`",
  line! "  : `error: incrementing \\`i\\` (${i})`;",
  line! "",
  line! "type TokenIndices<toks extends L.Token[]> = TokenIndicesImpl<",
  line! "  toks,",
  line! "  []",
  line! "> extends infer ret",
  line! "  ? ret extends number[]",
  line! "    ? U.Reverse<ret>",
  line! "    : ret",
  line! "  : \"unreachable: inferring `ret` never fails\";",
  line! "type TokenIndicesImpl<",
  line! "  toks extends L.Token[],",
  line! "  ret extends number[]",
  line! "> = toks extends [infer head, ...infer tail]",
  line! "  ? head extends L.Token",
  line! "    ? head[\"kind\"] extends keyof type_defs.TokenKindToIdx",
  line! "      ? tail extends L.Token[]",
  line! "        ? TokenIndicesImpl<",
  line! "            tail,",
  line! "            [type_defs.TokenKindToIdx[head[\"kind\"]], ...ret]",
  line! "          >",
  line! "        : \"unreachable: tail should always be L.Token[]\"",
  line! "      : `error: head['kind'] is not a valid token kind: ${head[\"kind\"]}`",
  line! "    : \"error: `head` is not a lexer token\"",
  line! "  : ret;",
  line! "",
  line! "type ParseImplShift<",
  line! "  newStateIdx extends number,",
  line! "  tokenInputs extends L.Token[],",
  line! "  input extends number[],",
  line! "  stack extends number[],",
  line! "  i extends number,",
  line! "  a extends number,",
  line! "  symbolStack extends type_defs.Symbol[],",
  line! "  maxRecursionDepth extends number",
  line! "> = NextToken<a, i, input> extends infer nextTok extends [",
  line! "  newA: number,",
  line! "  newI: number",
  line! "]",
  line! "  ? ParseImpl<",
  line! "      tokenInputs,",
  line! "      input,",
  line! "      [newStateIdx, ...stack],",
  line! "      nextTok[1],",
  line! "      nextTok[0],",
  line! "      [",
  line! "        { kind: \"token\"; token: tokenInputs[i]; lmao: newStateIdx },",
  line! "        ...symbolStack",
  line! "      ],",
  line! "      U.Pred<maxRecursionDepth>",
  line! "    >",
  line! "  : \"error: todo fill this out\"; /* NextToken<a, i, input>*/ // else it's an error so return it",
  line! "",
  line! "type ParseImplReduce<",
  line! "  ruleIdx extends number,",
  line! "  production extends type_defs.Production,",
  line! "  tokenInputs extends L.Token[],",
  line! "  input extends number[],",
  line! "  stack extends number[],",
  line! "  i extends number,",
  line! "  a extends number,",
  line! "  symbolStack extends type_defs.Symbol[],",
  line! "  maxRecursionDepth extends number",
  line! "> = U.PopNStack<stack, production[\"tokens\"][\"length\"]> extends infer newStack",
  line! "  ? newStack extends [number, ...infer newRestOfStack]",
  line! "    ? GetGoto<",
  line! "        newStack[0],",
  line! "        production[\"name\"]",
  line! "      > extends infer goto_ta extends number",
  line! "      ? newRestOfStack extends number[]",
  line! "        ? actions.EmitProduction<",
  line! "            ruleIdx,",
  line! "            symbolStack",
  line! "          > extends infer newSymbolStack extends type_defs.Symbol[]",
  line! "          ? ParseImpl<",
  line! "              tokenInputs,",
  line! "              input,",
  line! "              [goto_ta, newStack[0], ...newRestOfStack],",
  line! "              i,",
  line! "              a,",
  line! "              newSymbolStack,",
  line! "              U.Pred<maxRecursionDepth>",
  line! "            >",
  line! "          : [",
  line! "              `error state=${stack[0]} a=${a}`,",
  line! "              actions.EmitProduction<ruleIdx, symbolStack>,",
  line! "              symbolStack",
  line! "            ] //actions.EmitProduction<ruleIdx, symbolStack> //symbolStack // 'error' // [stack, newSymbolStack]",
  line! "        : \"unreachable: `newRestOfStack` should always be a number[]\"",
  line! "      : \"not good\" // goto_ta // else it's an error message so return it",
  line! "    : \"unreachable: `newStack` is always a number\"",
  line! "  : \"unreachable: inferring `newStack` never fails\";",
  line! "",
  line! "type ParseImpl<",
  line! "  tokenInputs extends L.Token[],",
  line! "  input extends number[],",
  line! "  stack extends number[],",
  line! "  i extends number,",
  line! "  a extends number,",
  line! "  symbolStack extends type_defs.Symbol[],",
  line! "  maxRecursionDepth extends number",
  line! "> = maxRecursionDepth extends 0",
  line! "  ? \"exceeded max recursion depth\"",
  line! "  : stack extends [infer top, ...infer _restOfStack]",
  line! "  ? GetAction<top, a> extends infer action",
  line! "    ? action extends { shift: number }",
  line! "      ? ParseImplShift<",
  line! "          action[\"shift\"],",
  line! "          tokenInputs,",
  line! "          input,",
  line! "          stack,",
  line! "          i,",
  line! "          a,",
  line! "          symbolStack,",
  line! "          maxRecursionDepth",
  line! "        >",
  line! "      : action extends { reduce: infer ruleIdx }",
  line! "      ? ruleIdx extends keyof type_defs.Productions",
  line! "        ? type_defs.Productions[ruleIdx] extends infer production extends type_defs.Production",
  line! "          ? ParseImplReduce<",
  line! "              ruleIdx,",
  line! "              production,",
  line! "              tokenInputs,",
  line! "              input,",
  line! "              stack,",
  line! "              i,",
  line! "              a,",
  line! "              symbolStack,",
  line! "              maxRecursionDepth",
  line! "            >",
  line! "          : \"unreachable: `Productions[ruleIdx]` is not a production\"",
  line! "        : \"error: `ruleIdx` is not a key in `Productions`\"",
  line! "      : action extends { accept: true }",
  line! "      ? symbolStack //[symbolStack, stack] // accept",
  line! "      : [`error: invalid token ${a}`, symbolStack]",
  line! "    : \"unreachable: inferring `action` should never fail\"",
  line! "  : \"error: stack is empty\";",
  line! "",
  line! "type Parse<tokenInputs extends L.Token[]> =",
  line! "  TokenIndices<tokenInputs> extends infer input",
  line! "    ? input extends number[]",
  line! "      ? ParseImpl<tokenInputs, input, [0], 0, input[0], [], 50>",
  line! "      : input extends string",
  line! "      ? input",
  line! "      : \"error: `input` should always be a number[] or string\"",
  line! "    : \"unreachable: inferring `input` never fails\";",
  line! "",
  line! "type tokens = L.Lex<\"(add 34 35)\">;",
  line! "type ast = Parse<tokens>;"]

/-! ## Comparing expressions -/

/-- Equality of the types that occur in the files. -/
def sameTy : Ty → Ty → Bool
  | .never, .never => true
  | .any, .any => true
  | .undef, .undef => true
  | .string, .string => true
  | .number, .number => true
  | .str s, .str s' => decide (s = s')
  | .num n, .num n' => decide (n = n')
  | .bool b, .bool b' => decide (b = b')
  | _, _ => false

theorem sameTy_eq : ∀ {t t' : Ty}, sameTy t t' = true → t = t' := by
  intro t t' h
  cases t <;> cases t' <;> simp_all [sameTy]

mutual
/-- Equality of expressions. -/
def same : Exp → Exp → Bool
  | .lit t, .lit t' => sameTy t t'
  | .ref x es, .ref x' es' => decide (x = x') && sames es es'
  | .idx t k, .idx t' k' => same t t' && same k k'
  | .keyof t, .keyof t' => same t t'
  | .arr t, .arr t' => same t t'
  | .tup es, .tup es' => sames es es'
  | .obj es, .obj es' => sames es es'
  | .union es, .union es' => sames es es'
  | .tmpl es, .tmpl es' => sames es es'
  | .infer x, .infer x' => decide (x = x')
  | .inferExt x c, .inferExt x' c' => decide (x = x') && same c c'
  | .cond c e t f, .cond c' e' t' f' => same c c' && same e e' && same t t' && same f f'
  | _, _ => false
def sames : Exps → Exps → Bool
  | .nil, .nil => true
  | .cons h e es, .cons h' e' es' => decide (h = h') && same e e' && sames es es'
  | _, _ => false
end

mutual
theorem same_eq : ∀ (e e' : Exp), same e e' = true → e = e'
  | .lit t, e', h => by cases e' <;> simp [same] at h; rw [sameTy_eq h]
  | .ref x es, e', h => by cases e' <;> simp [same] at h; rw [h.1, sames_eq _ _ h.2]
  | .idx t k, e', h => by cases e' <;> simp [same] at h; rw [same_eq _ _ h.1, same_eq _ _ h.2]
  | .keyof t, e', h => by cases e' <;> simp [same] at h; rw [same_eq _ _ h]
  | .arr t, e', h => by cases e' <;> simp [same] at h; rw [same_eq _ _ h]
  | .tup es, e', h => by cases e' <;> simp [same] at h; rw [sames_eq _ _ h]
  | .obj es, e', h => by cases e' <;> simp [same] at h; rw [sames_eq _ _ h]
  | .union es, e', h => by cases e' <;> simp [same] at h; rw [sames_eq _ _ h]
  | .tmpl es, e', h => by cases e' <;> simp [same] at h; rw [sames_eq _ _ h]
  | .infer x, e', h => by cases e' <;> simp [same] at h; rw [h]
  | .inferExt x c, e', h => by cases e' <;> simp [same] at h; rw [h.1, same_eq _ _ h.2]
  | .cond c e t f, e', h => by
    cases e' <;> simp [same] at h
    rw [same_eq _ _ h.1.1.1, same_eq _ _ h.1.1.2, same_eq _ _ h.1.2, same_eq _ _ h.2]
  | .code s xs, e', h => by cases e' <;> simp [same] at h
theorem sames_eq : ∀ (es es' : Exps), sames es es' = true → es = es'
  | .nil, es', h => by cases es' <;> simp [sames] at h; rfl
  | .cons hd e es, es', h => by
    cases es' <;> simp [sames] at h
    rw [h.1.1, same_eq _ _ h.1.2, sames_eq _ _ h.2]
end

/-- Equality of lists of declarations. -/
def sameDecls : List (Str × List Str × Exp) → List (Str × List Str × Exp) → Bool
  | [], [] => true
  | d :: ds, d' :: ds' => decide (d.1 = d'.1) && decide (d.2.1 = d'.2.1) && same d.2.2 d'.2.2 && sameDecls ds ds'
  | _, _ => false

theorem sameDecls_eq : ∀ ds ds' : List (Str × List Str × Exp), sameDecls ds ds' = true → ds = ds'
  | [], [], _ => rfl
  | [], _ :: _, h => by simp [sameDecls] at h
  | _ :: _, [], h => by simp [sameDecls] at h
  | (x, ps, e) :: ds, (x', ps', e') :: ds', h => by
    simp only [sameDecls, Bool.and_eq_true, decide_eq_true_eq] at h
    obtain ⟨⟨⟨rfl, rfl⟩, h2⟩, h3⟩ := h
    rw [same_eq _ _ h2, sameDecls_eq ds ds' h3]

/-- Is this what the text says? -/
def reads (text : Str) (ds : List (Str × List Str × Exp)) : Bool :=
  match Spec.TsSyntax.file text with
  | some ds' => sameDecls ds' ds
  | none => false

theorem reads_eq {text : Str} {ds : List (Str × List Str × Exp)} (h : reads text ds = true) :
    Spec.TsSyntax.file text = some ds := by
  unfold reads at h
  cases hf : Spec.TsSyntax.file text with
  | none => simp [hf] at h
  | some ds' => rw [hf] at h; rw [sameDecls_eq _ _ h]

set_option maxRecDepth 100000

theorem util_reads : Spec.TsSyntax.file utilText.flatten = some utilDecls := reads_eq (by decide +kernel)

theorem lex_reads : Spec.TsSyntax.file lexText.flatten = some lexDecls := reads_eq (by decide +kernel)

theorem parse_reads : Spec.TsSyntax.file parseText.flatten = some parseDecls := reads_eq (by decide +kernel)

/-- `[...a, b]`: the elements of a spread stand where it is written. -/
example (U : User) (c : Call) (vs : List Ty) (v : Ty) :
    ev U c [(name! "a", .tup vs), (name! "b", v)]
      (.tup (.cons .spread (.ref (name! "a") .nil) (.cons .elem (.ref (name! "b") .nil) .nil))) = some (.tup (vs ++ [v])) := by
  simp [ev, evs, mget, splice]

end Verif.Tests.TsFiles
