import Verif.Model.Code
import Verif.Model.Utf8
/-!
# The parser: `u_/is_text_.rs`, `u_/keywords_.rs`, `u_/pars_.rs`, `u_/pars_/add_.rs`, `u_/pars_/layer_.rs`

Differences from the Rust text: the table `a2_` of user keywords is empty and the group flags `g_` are
never set in this crate, so `kw2` holds at most one keyword; the extension hook `U11_` is absent;
debug-only code and `bp_` are left out; the `i32` counters do not overflow.
-/
namespace Zh

/-! ## `u_/is_text_.rs` -/

/-- The nesting counters of `IsText_` (`src/u_/is_text_.rs:3-9`). -/
structure Quo where
  text : Int
  text2 : Int
  yuan : Int
  code : Int
  rem : Int
  rem2 : Int
  var : Int
deriving Repr, DecidableEq

/-- `IsText_` (`src/u_/is_text_.rs:2-16`). -/
structure IsText where
  q : Quo
  first : Bool
  old : Bool
  now : Bool
  data : Bool
deriving Repr, DecidableEq

def Quo.zero : Quo := ⟨0, 0, 0, 0, 0, 0, 0⟩

/-- `Default` (`src/u_/is_text_.rs:1`). -/
def IsText.new : IsText := ⟨Quo.zero, false, false, false, false⟩

/-- `sp__` (`src/u_/is_text_.rs:19-21`). -/
def isSp (c : Nat) : Bool := decide (c ≤ 32)

/-- `add__` (`src/u_/is_text_.rs:33-47`): is the byte part of the text being collected. -/
def Quo.keep (q : Quo) (c : Nat) : Bool :=
  if q.rem > 0 then false
  else if q.yuan > 0 then true
  else if q.text > 0 ∨ q.var > 0 then decide (32 ≤ c)
  else if q.text2 > 0 then true
  else decide (32 < c)

/-- `as2__` (`src/u_/is_text_.rs:88-90`). -/
def Quo.as2 (q : Quo) : Bool := decide (0 < q.yuan) || decide (0 < q.code)

/-- The value computed for `now_` (`src/u_/is_text_.rs:93`). -/
def Quo.inText (q : Quo) : Bool :=
  decide (0 < q.text) || decide (0 < q.text2) || q.as2 || decide (0 < q.var) || decide (0 < q.rem2)

/-- The tail of `add4__` (`src/u_/is_text_.rs:67-79`); `c` is the letter, `b` the nesting flag. -/
def Quo.add4End (q : Quo) (c : Char) (b : Bool) (i2 : Nat) : Nat :=
  if 0 < q.code ∧ c ≠ 'c' ∧ c ≠ 'r' then 2
  else if 0 < q.text2 ∧ c ≠ 'e' ∧ c ≠ 'r' then 2
  else if b then i2 else 1

/-- The quoting part of the keyword handling: `add2__`, `add3__`, `add4__`
(`src/u_/is_text_.rs:49-80`, `src/u_/pars_.rs:159-171`).  The result is 0 for other keywords. -/
def Quo.add4 (q : Quo) (id : KwId) : Quo × Nat :=
  match id with
  | .beginRem => let q := { q with rem := q.rem + 1 }; (q, q.add4End 'r' (decide (q.rem > 1)) 1)
  | .endRem => let q := { q with rem := q.rem - 1 }; (q, q.add4End 'r' (decide (q.rem > 0)) 1)
  | .beginText => let q := { q with text := q.text + 1 }; (q, q.add4End 't' (decide (q.text > 1)) 2)
  | .endText => let q := { q with text := q.text - 1 }; (q, q.add4End 't' (decide (q.text > 0)) 2)
  | .beginYuanyang => let q := { q with yuan := q.yuan + 1 }; (q, q.add4End 'y' (decide (q.yuan > 1)) 2)
  | .endYuanyang => let q := { q with yuan := q.yuan - 1 }; (q, q.add4End 'y' (decide (q.yuan > 0)) 2)
  | .beginCode => let q := { q with code := q.code + 1 }; (q, q.add4End 'c' (decide (q.code > 1)) 2)
  | .endCode => let q := { q with code := q.code - 1 }; (q, q.add4End 'c' (decide (q.code > 0)) 2)
  | .beginText2 => let q := { q with text2 := q.text2 + 1 }; (q, q.add4End 'e' (decide (q.text2 > 1)) 2)
  | .endText2 => let q := { q with text2 := q.text2 - 1 }; (q, q.add4End 'e' (decide (q.text2 > 0)) 2)
  | _ => (q, 0)

/-- The bracket counters (`src/u_/is_text_.rs:82-86`, `src/u_/pars_.rs:189-194`); `none` for other
keywords. -/
def Quo.bracket (q : Quo) (id : KwId) : Option Quo :=
  match id with
  | .beginVar => some { q with var := q.var + 1 }
  | .endVar => some { q with var := q.var - 1 }
  | .beginRem2 => some { q with rem2 := q.rem2 + 1 }
  | .endRem2 => some { q with rem2 := q.rem2 - 1 }
  | _ => none

/-- `need_clear__` (`src/u_/is_text_.rs:92-99`); `now` is the value computed for `now_`. -/
def IsText.needClear (is : IsText) (now : Bool) : Bool × IsText :=
  let is := if is.first then { is with now := now } else { is with now := now, first := true, old := now }
  (is.old != is.now, is)

/-- `clear__` (`src/u_/is_text_.rs:100-104`). -/
def IsText.clear (is : IsText) : IsText := { is with old := is.now, now := false, first := false }

/-! ## `u_/keywords_.rs` -/

/-- The keyword classes (`src/u_/keywords_.rs:34-116`). -/
def inRem (id : KwId) : Bool := match id with | .beginRem | .endRem => true | _ => false
def inVar (id : KwId) : Bool :=
  match id with | .beginRem2 | .endRem2 | .beginVar | .endVar | .brkpoint | .parBrkpoint => true | _ => false
def inText (id : KwId) : Bool :=
  match id with | .beginVar | .endVar | .beginText | .endText => true | _ => false
def inYuan (id : KwId) : Bool := match id with | .beginYuanyang | .endYuanyang => true | _ => false
def inText2 (id : KwId) : Bool :=
  match id with
  | .beginVar | .endVar | .beginText | .endText | .beginText2 | .endText2 | .beginYuanyang | .endYuanyang
  | .beginCode | .endCode => true
  | _ => false
def inCode (id : KwId) : Bool := inRem id || inText2 id
def inData (id : KwId) : Bool :=
  match id with
  | .beginRem | .endRem | .beginText | .endText | .beginText2 | .endText2 | .beginYuanyang | .endYuanyang
  | .beginCode | .endCode | .dunhao | .jvhao | .fenhao | .douhao => true
  | _ => false
def inIf (id : KwId) : Bool :=
  match id with
  | .dengyu | .xiaoyudengyu | .xiaoyu | .dayudengyu | .dayu | .not_ | .and_ | .or_ => true
  | _ => false
def inIf2 (id : KwId) : Bool := match id with | .then_ | .else_ => true | _ => false
def inSet (id : KwId) : Bool := match id with | .set_ | .alias | .def_ => true | _ => false

/-- Which keywords are looked for in a state (`src/u_/pars_.rs:111-130`). -/
def active (q : Quo) (data : Bool) (id : KwId) : Bool :=
  if 0 < q.var then inVar id
  else if 0 < q.text then inText id
  else if 0 < q.yuan then inYuan id
  else if 0 < q.rem then inRem id
  else if 0 < q.rem2 then inVar id
  else if 0 < q.code then inCode id
  else if 0 < q.text2 then inText2 id
  else if data then inData id
  else true

/-! ## Keyword recognition -/

/-- Answer of `is_kw__`. -/
inductive KwM where
  | hit (n : Nat)
  | blank
  | miss
deriving Repr, DecidableEq

/-- `is_kw__` (`src/u_/pars_.rs:71-90`) on the bytes from the current position on; `started` is
`i3 > 0`, `n` the number of bytes consumed so far. -/
def isKwGo : (kw src : List Nat) → (started : Bool) → (n : Nat) → KwM
  | [], _, _, n => .hit n
  | _ :: _, [], _, _ => .miss
  | k :: ks, c :: cs, started, n =>
    if isSp c then (if started then isKwGo (k :: ks) cs started (n + 1) else .blank)
    else if c ≠ k then .miss
    else isKwGo ks cs true (n + 1)

/-- The bytes of a keyword. -/
def kwBytes (id : KwId) : List Nat := utf8 (kwStr id)

/-- The loop over the keywords (`src/u_/pars_.rs:131-137`): the first one that matches, and how many
bytes it took. -/
def findKw (src : List Nat) : List KwId → Option (KwId × Nat)
  | [] => none
  | id :: ids =>
    match isKwGo (kwBytes id) src false 0 with
    | .hit n => some (id, n)
    | .blank => none
    | .miss => findKw src ids

/-- The keyword at a position in a state. -/
def kwAt (q : Quo) (data : Bool) (src : List Nat) : Option (KwId × Nat) :=
  findKw src (kwOrder.filter (active q data))

/-! ## Layers: `u_/pars_/layer_.rs` -/

/-- `Layer_` (`src/u_/pars_/layer_.rs:5-10`); the list of layers replaces `up_`.  `ret0` is the value of
the cell `ret_0_`, which does not change while a deeper layer is parsed. -/
structure Layer where
  i : Int
  kw : Option KwId
  ret0 : Nat
deriving Repr, DecidableEq

/-- The case `。` of `i1__` (`src/u_/pars_/layer_.rs:33-63`): `ret`, `must`. -/
def jvhaoScan (selfI : Int) : List Layer → Int → Int × Bool
  | [], ret => (ret, false)
  | c :: cs, ret =>
    match c.kw with
    | some .beginBlock => (c.i, decide (c.i < selfI))
    | some _ => jvhaoScan selfI cs (c.i - 1)
    | none => jvhaoScan selfI cs ret

/-- The case `了` (`src/u_/pars_/layer_.rs:64-96`). -/
def endBlockScan : List Layer → (b : Bool) → Int → Int
  | [], _, ret => ret
  | c :: cs, b, ret =>
    match c.kw with
    | some k =>
      if b then
        match k with
        | .if_ => if c.ret0 = 3 then c.i - 1 else ret
        | .switch | .switch2 | .for_ | .range => c.i - 1
        | _ => ret
      else if k = .beginBlock then endBlockScan cs true (c.i - 1)
      else endBlockScan cs false ret
    | none => if b then ret else endBlockScan cs b ret

/-- The case `先` (`src/u_/pars_/layer_.rs:97-116`): `must`. -/
def beginBlockScan : List Layer → (b : Bool) → Bool
  | [], _ => false
  | c :: cs, b =>
    match c.kw with
    | some .switch | some .switch2 => if b then true else beginBlockScan cs b
    | some .beginBlock => false
    | some _ => beginBlockScan cs true
    | none => beginBlockScan cs b

/-- The case `以` (`src/u_/pars_/layer_.rs:117-127`). -/
def equScan : List Layer → Int → Int
  | [], ret => ret
  | c :: cs, ret =>
    match c.kw with
    | some k => if inSet k then c.i else equScan cs ret
    | none => equScan cs ret

/-- The case of a comparison or connective (`src/u_/pars_/layer_.rs:129-148`). -/
def ifScan : List Layer → (ret2 : Int) → Int → Int
  | [], _, ret => ret
  | c :: cs, ret2, ret =>
    match c.kw with
    | some .if_ => if c.ret0 = 1 then (if ret2 ≠ -1 then ret2 else c.i) else ifScan cs ret2 ret
    | some .beginBlock => ifScan cs c.i ret
    | _ => ifScan cs ret2 ret

/-- The case `那么`, `否则` (`src/u_/pars_/layer_.rs:149-159`). -/
def if2Scan : List Layer → Int → Int
  | [], ret => ret
  | c :: cs, ret =>
    match c.kw with
    | some .if_ => c.i
    | _ => if2Scan cs ret

/-- The `match` of `i1__` (`src/u_/pars_/layer_.rs:32-161`): `ret`, `must`, and the value for `u_` (0: not
set). -/
def layerScan (selfI : Int) (ls : List Layer) (id : KwId) : Int × Bool × Nat :=
  match id with
  | .jvhao => let (r, m) := jvhaoScan selfI ls selfI; (r, m, 0)
  | .endBlock => (endBlockScan ls false selfI, false, 0)
  | .beginBlock =>
    if beginBlockScan ls false then (selfI, true, (kwBytes .beginBlock).length) else (selfI, false, 0)
  | .equ => (equScan ls selfI, false, 0)
  | _ =>
    if inIf id then (ifScan ls (-1) selfI, false, 0)
    else if inIf2 id then (if2Scan ls selfI, false, 0)
    else (selfI, false, 0)

/-! ## `u_/pars_.rs` -/

/-- Result of the parser: a value, an error (with the position reached), a panic, or no fuel. -/
inductive PR (α : Type) where
  | ok (a : α)
  | err (e : Err) (i : Nat)
  | panic
  | fuel
deriving Repr, DecidableEq

namespace PR
@[inline] def bind {α β : Type} : PR α → (α → PR β) → PR β
  | ok a, f => f a
  | err e i, _ => err e i
  | panic, _ => panic
  | fuel, _ => fuel
instance : Monad PR where
  pure := PR.ok
  bind := PR.bind
@[simp] theorem pure_def {α} (a : α) : (pure a : PR α) = ok a := rfl
@[simp] theorem ok_bind {α β} (a : α) (f : α → PR β) : (ok a >>= f) = f a := rfl
@[simp] theorem err_bind {α β} (e i) (f : α → PR β) : ((err e i : PR α) >>= f) = err e i := rfl
@[simp] theorem panic_bind {α β} (f : α → PR β) : ((panic : PR α) >>= f) = panic := rfl
@[simp] theorem fuel_bind {α β} (f : α → PR β) : ((fuel : PR α) >>= f) = fuel := rfl
end PR

/-- The mutable state of `hello2__` (`src/u_/pars_.rs:94-101`): position, `Mut2_` (lines 20-27),
`IsText_`, the four parts of `Ret_` (lines 60-63) and the text being collected. -/
structure PS where
  i : Nat
  mi : Int
  mkw : Option KwId
  mu : Nat
  is : IsText
  ret0 : Nat
  c1 : List Code
  c2 : Option (List Code)
  c3 : Option (List Code)
  text : List Nat
deriving Repr

/-- `reset__` (`src/u_/pars_.rs:33-38`). -/
def PS.reset (s : PS) : PS := { s with mi := -1, mkw := none, mu := 0 }

/-- UTF-8 decoding (`String::from_utf8`): a continuation byte. -/
def isCont (b : Nat) : Bool := decide (0x80 ≤ b) && decide (b < 0xC0)

/-- UTF-8 decoding (`String::from_utf8`), rejecting overlong forms, surrogates and values above
`0x10FFFF`.  Standard library, not code of the repository. -/
def decode : List Nat → Option Str
  | [] => some []
  | b0 :: r =>
    if b0 < 0x80 then (decode r).map (Char.ofNat b0 :: ·)
    else match r with
      | [] => none
      | b1 :: r =>
        if !isCont b1 then none
        else if 0xC2 ≤ b0 ∧ b0 < 0xE0 then
          (decode r).map (Char.ofNat ((b0 - 0xC0) * 64 + (b1 - 0x80)) :: ·)
        else match r with
          | [] => none
          | b2 :: r =>
            if !isCont b2 then none
            else if 0xE0 ≤ b0 ∧ b0 < 0xF0 then
              let v := (b0 - 0xE0) * 4096 + (b1 - 0x80) * 64 + (b2 - 0x80)
              if 0x800 ≤ v ∧ v.isValidChar then (decode r).map (Char.ofNat v :: ·) else none
            else match r with
              | [] => none
              | b3 :: r =>
                if !isCont b3 then none
                else if 0xF0 ≤ b0 ∧ b0 < 0xF8 then
                  let v := (b0 - 0xF0) * 262144 + (b1 - 0x80) * 4096 + (b2 - 0x80) * 64 + (b3 - 0x80)
                  if 0x10000 ≤ v ∧ v.isValidChar then (decode r).map (Char.ofNat v :: ·) else none
                else none

/-- The error for a text that is not UTF-8; the wording comes from the standard library and is not
modelled (`C16` shows that it never occurs). -/
def errUtf8 : Err := .msg c!"utf8"

/-- `add_code__` (`src/u_/pars_/add_.rs:128-147`). -/
def addCode (c : Code) (s : PS) : PR PS :=
  if s.ret0 = 2 then
    match s.c2 with
    | some l => .ok { s with c2 := some (l ++ [c]) }
    | none => .err (.msg c!"缺少前句") s.i
  else if s.ret0 = 3 then
    match s.c3 with
    | some l => .ok { s with c3 := some (l ++ [c]) }
    | none => .err (.msg c!"缺少前句") s.i
  else .ok { s with c1 := s.c1 ++ [c] }

/-- The code item made of a collected text (`src/u_/pars_/add_.rs:107-112`). -/
def textCode (undef : Bool) (t : Str) : Out Code :=
  if undef then .ok (.undef t)
  else match textNew t with
    | .ok t => .ok (.text t)
    | .panic => .panic
    | .fuel => .fuel

/-- `add_text__` (`src/u_/pars_/add_.rs:103-127`). -/
def addText (s : PS) : PR PS :=
  if s.text.isEmpty then .ok { s with is := s.is.clear }
  else match decode s.text with
    | none => .err errUtf8 s.i
    | some t =>
      match textCode (!s.is.old) t with
      | .panic => .panic
      | .fuel => .fuel
      | .ok c => addCode c { s with text := [], is := s.is.clear }

/-- `add_kw__` (`src/u_/pars_/add_.rs:9-30`). -/
def addKw (id : KwId) (s : PS) : PR PS :=
  if inIf id then addCode (.kw2 id) s
  else match id with
    | .jvhao | .fenhao | .douhao | .dunhao | .brkpoint => addCode (.kw1 id) s
    | _ => .panic

/-- What the loop does after a keyword. -/
inductive Next where
  | loop (s : PS)
  | brk (s : PS)
  | child (s : PS)
deriving Repr

/-- Keywords checked against the layers (`src/u_/pars_.rs:212-218`). -/
def layerKw (id : KwId) : Bool :=
  (match id with | .jvhao | .endBlock | .beginBlock | .equ => true | _ => false) || inIf id || inIf2 id

/-- `i1__` (`src/u_/pars_/layer_.rs:23-176`): the state after it, and whether the layer is left. -/
def layerI1 (selfI : Int) (ls : List Layer) (id : KwId) (s : PS) : PS × Bool :=
  let (ret, must, u) := layerScan selfI ls id
  let s := if u = 0 then s else { s with mu := u }
  if ret < selfI then ({ s with mi := ret, mkw := some id }, true)
  else if must then ({ s with mkw := some id }, true)
  else (s, false)

/-- Change of the list that is being filled (`src/u_/pars_.rs:223-228`). -/
def kwRet0 (id : KwId) (s : PS) : PS :=
  match id with
  | .equ | .then_ => { s with ret0 := 2 }
  | .else_ => { s with ret0 := 3 }
  | _ => s

/-- Keywords that become an item of their own (`src/u_/pars_.rs:229-234`). -/
def ownKw (id : KwId) : Bool :=
  (match id with | .jvhao | .dunhao | .brkpoint => true | _ => false) || inIf id

/-- What is left for the other keywords (`src/u_/pars_.rs:238-257`). -/
def kwKind (id : KwId) (s : PS) : Next :=
  match id with
  | .endBlock | .equ | .then_ | .else_ => .loop s
  | .endRem2 | .endVar => .brk s
  | .parBrkpoint => .loop s
  | _ => .child s

/-- The part of the keyword handling after the layer check (`src/u_/pars_.rs:223-257`). -/
def kwRest (id : KwId) (s : PS) : PR Next :=
  if ownKw id then addKw id (kwRet0 id s) >>= fun s => .ok (.loop s)
  else .ok (kwKind id (kwRet0 id s))

/-- The keyword handling from `add_text__` on (`src/u_/pars_.rs:206-257`). -/
def kwMain (me : Int) (kw : Option KwId) (ups : List Layer) (id : KwId) (s : PS) : PR Next :=
  addText s >>= fun s =>
    if id = .maohao then .ok (.loop s)
    else if layerKw id then
      match layerI1 me (⟨me, kw, s.ret0⟩ :: ups) id s with
      | (s, true) => .ok (.brk s)
      | (s, false) => kwRest id s
    else kwRest id s

/-- The handling of a keyword (`src/u_/pars_.rs:158-257`); `me`, `kw` belong to the present layer, `ups`
are the layers above it. -/
def kwStep (me : Int) (kw : Option KwId) (ups : List Layer) (id : KwId) (s : PS) : PR Next :=
  let (q, add) := s.is.q.add4 id
  if add = 1 then .ok (.loop { s with is := { s.is with q := q } })
  else if add = 2 then
    let s := { s with is := { s.is with q := q } }
    (if s.is.old then .ok s else addText s) >>= fun s =>
      .ok (.loop { s with text := s.text ++ kwBytes id })
  else match s.is.q.bracket id with
    | some q =>
      let s := { s with is := { s.is with q := q } }
      if q.as2 then .ok (.loop { s with text := s.text ++ kwBytes id }) else kwMain me kw ups id s
    | none => kwMain me kw ups id s

/-- The state in which the sentence of a keyword is parsed (`src/u_/pars_.rs:258-279`). -/
def childState (id : KwId) (s : PS) : PS :=
  { s with ret0 := 1, c1 := [], c2 := if id = .if_ ∨ inSet id then some [] else none,
           c3 := if id = .if_ then some [] else none, text := [] }

/-- `text__` (`src/u_/world_.rs:91-93`). -/
def textStr (s : Str) : Str := kwStr .beginText ++ s ++ kwStr .endText

/-- What follows the parsing of the sentence (`src/u_/pars_.rs:294-334`): `s` is the state before,
`ch` the state after it.  The flag says whether the loop goes on. -/
def afterChild (selfI : Int) (id : KwId) (s ch : PS) : PR (PS × Bool) :=
  match mkCode id ch.c1 (ch.c2.getD []) (ch.c3.getD []) with
  | none => .err (.msg (textStr (kwStr id) ++ c!"没实现")) ch.i
  | some (.error e) => .err { e with s := textStr (kwStr id) ++ e.s } ch.i
  | some (.ok c) =>
    addCode c { ch with ret0 := s.ret0, c1 := s.c1, c2 := s.c2, c3 := s.c3, text := s.text } >>= fun s =>
      if s.mu > 0 then .ok ({ s with i := s.i - s.mu }.reset, true)
      else if s.mi ≥ 0 ∧ selfI > s.mi then .ok (s, false)
      else
        (match s.mkw with
          | some k =>
            if k = .jvhao ∨ inIf k then addKw k s
            else match k with
              | .then_ => .ok { s with ret0 := 2 }
              | .else_ => .ok { s with ret0 := 3 }
              | _ => .ok s
          | none => .ok s) >>= fun s => .ok (s.reset, true)

/-- A byte that is kept (`src/u_/pars_.rs:339-342`). -/
def keepByte (c : Nat) (now : Bool) (s : PS) : PR PS :=
  (if (s.is.needClear now).1 then addText { s with is := (s.is.needClear now).2 }
   else .ok { s with is := (s.is.needClear now).2 }) >>= fun s => .ok { s with text := s.text ++ [c] }

/-- A byte that belongs to no keyword (`src/u_/pars_.rs:337-344`). -/
def byteStep (c : Nat) (s : PS) : PR PS :=
  (if s.is.q.keep c then keepByte c s.is.q.inText s else .ok s) >>= fun s => .ok { s with i := s.i + 1 }

/-- `hello2__` (`src/u_/pars_.rs:94-347`).  `me` and `kw` are depth and keyword of the present layer,
`ups` the layers above it; the loop and the recursion share the fuel. -/
def pars (a2 : List Nat) : Nat → Int → Option KwId → List Layer → PS → PR PS
  | 0, _, _, _, _ => .fuel
  | n + 1, me, kw, ups, s =>
    if a2.length ≤ s.i then addText s
    else
      match kwAt s.is.q s.is.data (a2.drop s.i) with
      | some (id, m) =>
        kwStep me kw ups id { s with i := s.i + m } >>= fun nx =>
          match nx with
          | .loop s => pars a2 n me kw ups s
          | .brk s => addText s
          | .child s =>
            pars a2 n (me + 1) (some id) (⟨me, kw, s.ret0⟩ :: ups) (childState id s) >>= fun ch =>
              afterChild me id s ch >>= fun p =>
                if p.2 then pars a2 n me kw ups p.1 else addText p.1
      | none =>
        byteStep ((a2[s.i]?).getD 0) s >>= fun s => pars a2 n me kw ups s

/-- The initial state (`src/u_/pars_.rs:349-361`). -/
def PS.init : PS :=
  { i := 0, mi := -1, mkw := none, mu := 0, is := .new, ret0 := 1, c1 := [], c2 := none, c3 := none,
    text := [] }

/-- `ret3__` (`src/u_/world_.rs:126-136`) with `from = 0`. -/
def ret3 (a2 : List Nat) (e : Err) (i : Nat) : Err :=
  { e with s2 := e.s2 ++ ['\n'] ++ kwStr .beginText ++ (decode (a2.take i)).getD [] ++ kwStr .endText }

/-- `Pars_::hello__` (`src/u_/pars_.rs:348-367`) on the bytes of a source; the fuel is proved sufficient
in `C15`; the outermost layer has depth 0 and no keyword (`src/u_/pars_/layer_.rs:13-15`). -/
def parseBytes (a2 : List Nat) : Out (Except Err (List Code)) :=
  match pars a2 (a2.length + 1) 0 none [] PS.init with
  | .ok s => .ok (.ok s.c1)
  | .err e i => .ok (.error (ret3 a2 e i))
  | .panic => .panic
  | .fuel => .fuel

/-- `Pars_::hello__` on a source text. -/
def parse (src : Str) : Out (Except Err (List Code)) := parseBytes (utf8 src)

end Zh
