import Verif.Model.Basic
/-!
# `u_/keyword_.rs`: keywords
-/
namespace Zh

/-- `Id_` (`src/u_/keyword_.rs:11-43`).  The ids `U2`..`U11` belong to host applications that extend
the table; they are not modelled (the built-in table has none of them). -/
inductive KwId where
  | undef
  | beginRem
  | endRem
  | beginRem2
  | endRem2
  | beginVar
  | endVar
  | beginText
  | endText
  | beginYuanyang
  | endYuanyang
  | beginCode
  | endCode
  | beginText2
  | endText2
  | beginBlock
  | endBlock
  | jvhao
  | fenhao
  | douhao
  | maohao
  | dunhao
  | for_
  | break_
  | continue_
  | range
  | break2
  | continue2
  | return_
  | quit
  | if_
  | dengyu
  | xiaoyudengyu
  | xiaoyu
  | dayudengyu
  | dayu
  | not_
  | and_
  | or_
  | then_
  | else_
  | switch
  | switch2
  | set_
  | alias
  | def_
  | equ
  | has
  | eval_
  | load
  | expl
  | print_
  | exec
  | mod_
  | modFree
  | name
  | guandaodu
  | guandaojie
  | guandaojie2
  | brkpoint
  | parBrkpoint
deriving Repr, DecidableEq

/-- `Item_` (`src/u_/keyword_.rs:53-57`).  The group flags `g_` are false for every built-in keyword
(`new`, lines 60-62) and only set by host applications; they are left out. -/
structure Kw where
  s : Str
  id : KwId
deriving Repr, DecidableEq

/-- The text of each built-in keyword (`src/u_/keyword_.rs:148-207`, 273). -/
def kwStr : KwId → Str
  | .undef => []
  | .beginRem => c!"（"
  | .endRem => c!"）"
  | .beginRem2 => c!"【"
  | .endRem2 => c!"】"
  | .beginVar => c!"‘"
  | .endVar => c!"’"
  | .beginText => c!"“"
  | .endText => c!"”"
  | .beginYuanyang => c!"下原样"
  | .endYuanyang => c!"上原样"
  | .beginCode => c!"下代码"
  | .endCode => c!"上代码"
  | .beginText2 => c!"下文本"
  | .endText2 => c!"上文本"
  | .beginBlock => c!"先"
  | .endBlock => c!"了"
  | .jvhao => c!"。"
  | .fenhao => c!"；"
  | .douhao => c!"，"
  | .maohao => c!"："
  | .dunhao => c!"、"
  | .for_ => c!"循环"
  | .break_ => c!"跳出"
  | .continue_ => c!"再来"
  | .range => c!"圈子"
  | .break2 => c!"遁出"
  | .continue2 => c!"重来"
  | .return_ => c!"返回"
  | .quit => c!"结束"
  | .if_ => c!"如果"
  | .dengyu => c!"等于"
  | .xiaoyudengyu => c!"小于等于"
  | .xiaoyu => c!"小于"
  | .dayudengyu => c!"大于等于"
  | .dayu => c!"大于"
  | .not_ => c!"不"
  | .and_ => c!"并且"
  | .or_ => c!"或者"
  | .then_ => c!"那么"
  | .else_ => c!"否则"
  | .switch => c!"分叉"
  | .switch2 => c!"分支"
  | .set_ => c!"赋予"
  | .alias => c!"别名"
  | .def_ => c!"定义"
  | .equ => c!"以"
  | .has => c!"存在"
  | .eval_ => c!"解释"
  | .load => c!"加载"
  | .expl => c!"算术"
  | .print_ => c!"显示"
  | .exec => c!"执行"
  | .mod_ => c!"模块"
  | .modFree => c!"释放模块"
  | .name => c!"命名"
  | .guandaodu => c!"管道堵"
  | .guandaojie => c!"管道接"
  | .guandaojie2 => c!"管道节"
  | .brkpoint => c!"这断点"
  | .parBrkpoint => c!"这析断点"

/-- The built-in keyword with a given id. -/
def kw (id : KwId) : Kw := ⟨kwStr id, id⟩

/-- The ids of the built-in table in table order (`src/u_/keyword_.rs:210-270`). -/
def kwOrder : List KwId := [
  .beginRem, .endRem, .beginRem2, .endRem2, .beginVar, .endVar,
  .beginText, .endText, .beginYuanyang, .endYuanyang, .beginCode, .endCode,
  .beginText2, .endText2, .beginBlock, .endBlock, .jvhao, .fenhao,
  .douhao, .maohao, .dunhao, .for_, .break_, .continue_,
  .range, .break2, .continue2, .return_, .quit, .if_,
  .dengyu, .xiaoyudengyu, .xiaoyu, .dayudengyu, .dayu, .not_,
  .and_, .or_, .then_, .else_, .switch, .switch2,
  .set_, .alias, .def_, .equ, .has, .eval_,
  .load, .expl, .print_, .exec, .mod_, .modFree,
  .name, .guandaodu, .guandaojie, .guandaojie2, .brkpoint, .parBrkpoint]

/-- `kws.a_` (`src/u_/keyword_.rs:209-272`). -/
def kwTable : List Kw := kwOrder.map kw

end Zh
