import Verif.Lemmas.LangVars
import Verif.Lemmas.TalkNames
/-! All commands but `fold-while` announce their variables before anything can be resolved without them. -/
namespace Verif.Lang
open Verif Verif.Comp
variable {N : Type}

/-! ### Commands without variables -/

abbrev Calm (k : Talk Tab.Ty (Tab.Value N)) : Prop := k.NoVars

theorem Calm.fail (h : Bool) : Calm (N := N) (.fail h) := ⟨trivial, trivial⟩
theorem Calm.done {t : Tab.Ty} {an : List Tab.Ty} {f : Tab.Value N → Act (Tab.Value N)} : Calm (.done t an f) := ⟨trivial, trivial⟩
theorem Calm.given {f : Tab.Ty → Tab.Value N → Act (Tab.Value N)} : Calm (.given f) := ⟨trivial, trivial⟩
theorem Calm.tell {q : Say Tab.Ty} {k : Talk Tab.Ty (Tab.Value N)} (h : Calm k) : Calm (.tell q k) := ⟨h.1, h.2⟩
theorem Calm.read {l : Bool} {t : Option Tab.Ty} {u : Option Tab.Ty → Option Tab.Ty} {k : Tab.Ty → Tab.Ty → Talk Tab.Ty (Tab.Value N)} (h : ∀ i o, Calm (k i o)) :
    Calm (.read l t u k) := ⟨fun i o => (h i o).1, fun i o => (h i o).2⟩
theorem Calm.arg {t : Tab.Ty} {k : Tab.Ty → Talk Tab.Ty (Tab.Value N)} (h : ∀ o, Calm (k o)) : Calm (.arg t k) := .read fun _ o => h o
theorem Calm.argAs {t u : Tab.Ty} {k : Talk Tab.Ty (Tab.Value N)} (h : Calm k) : Calm (.argAs t u k) := .read fun _ _ => h
theorem Calm.args {t : Tab.Ty} : ∀ {n : Nat} {k : List Tab.Ty → Talk Tab.Ty (Tab.Value N)}, (∀ us, Calm (k us)) → Calm (.args t n k)
  | 0, _, h => h []
  | _ + 1, _, h => .arg fun _ => .args fun _ => h _
theorem Calm.argsAs {t u : Tab.Ty} {k : Talk Tab.Ty (Tab.Value N)} : ∀ {n : Nat}, Calm k → Calm (.argsAs t u n k)
  | 0, h => h
  | _ + 1, h => .argAs (.argsAs h)
theorem Calm.argsOf {t : Tab.Ty} {k : Talk Tab.Ty (Tab.Value N)} : ∀ {us : List Tab.Ty}, Calm k → Calm (.argsOf t us k)
  | [], h => h
  | _ :: _, h => .argAs (.argsOf h)
theorem Calm.fin {fs : List String} {t : Tab.Ty} {f : Tab.Value N → Act (Tab.Value N)} : Calm (Lang.fin fs t f) := by
  unfold Lang.fin
  split
  · exact .done
  · exact .fail _
theorem Calm.cond {p : Prop} [Decidable p] {a b : Talk Tab.Ty (Tab.Value N)} (ha : Calm a) (hb : Calm b) : Calm (if p then a else b) := by
  split
  · exact ha
  · exact hb
theorem Calm.tab {t : Tab.Ty} {k : Talk Tab.Ty (Tab.Value N)} (h : Calm k) : Calm (tabTalk t k) := .cond (.tell h) (.fail _)
theorem Calm.colNames {n : Nat} {k : Talk Tab.Ty (Tab.Value N)} (h : Calm k) : Calm (Lang.colNames n k) := .cond (.fail _) (.argsAs h)
theorem Calm.unary {i t u : Tab.Ty} {says : Bool} {f : Tab.Value N → Got (Tab.Value N)} {fs : List String} : Calm (Lang.unary i t u says f fs) := by
  unfold Lang.unary
  repeat' first | exact .fin | exact .fail _ | exact .tell .fin | split
theorem Calm.binary {i t a u : Tab.Ty} {says : Bool} {f : Tab.Value N → Tab.Value N → Got (Tab.Value N)} {fs : List String} : Calm (Lang.binary i t a u says f fs) := by
  unfold Lang.binary
  dsimp only
  repeat' first | exact .argAs .fin | exact .fail _ | exact .tell (.argAs .fin) | split
theorem Calm.if_ {fs : List String} {t : Tab.Ty} {total : Nat} : ∀ {n : Nat} {us : List Tab.Ty}, Calm (ifTalk (N := N) fs t total n us)
  | 0, _ => .arg fun _ => .cond .fin (.fail _)
  | _ + 1, _ => .argAs (.arg fun _ => .if_)
theorem Calm.ren {W : World N} {fs : List String} : ∀ {n : Nat} {ms : List Bool}, Calm (renTalk W fs n ms)
  | 0, _ => .fin
  | _ + 1, _ => .read fun _ _ => .argAs .ren
theorem Calm.variadic {t i : Tab.Ty} {agg : Tab.Value N → Tab.Value N → Got (Tab.Value N)} {fs : List String} {n : Nat} : Calm (Lang.variadic t agg fs n i) :=
  .cond (.tell (.cond (.fail _) (.tell (.argsAs .fin)))) (.fail _)
theorem Calm.ignoring {u i : Tab.Ty} {v : Tab.Value N} {fs : List String} : Calm (Lang.ignoring u v fs i) :=
  .cond (.tell (.argAs .fin)) (.fail _)
theorem Calm.injected {u i : Tab.Ty} {W : World N} {code : String → Option (Tab.Value N → Tab.Value N → Option (Tab.Value N))} {fs : List String} :
    Calm (Lang.injected u W code fs i) := by
  unfold Lang.injected
  split
  · rename_i name
    refine .tell (.cond (.argAs ?_) (.fail _))
    split
    · exact .fail _
    · exact .fin
  · exact .tell (.fail _)
theorem Calm.logic {stop : Bool} {fs : List String} {n : Nat} {i : Tab.Ty} : Calm (Lang.logic (N := N) stop fs n i) := by
  cases n with
  | zero => exact .tell (.fail _)
  | succ n => exact .tell (.argsAs .fin)
theorem Calm.filter {W : World N} {op n : Nat} {i : Tab.Ty} : Calm (filterTalk W op n i) := by
  refine .tab ?_
  split
  · exact .argAs .fin
  · split
    · exact .argAs .fin
    · refine .argAs ?_
      split
      · exact .fail _
      · exact .read fun _ _ => .fin
theorem Calm.renWith {W : World N} {op : Nat} {i : Tab.Ty} : Calm (renWithTalk W op i) := by
  refine .tab (.argAs ?_)
  split
  · exact .fail _
  · exact .read fun _ _ => .fin
theorem Calm.getRow {W : World N} {op n : Nat} {i : Tab.Ty} : Calm (getRowTalk W op n i) := by
  unfold getRowTalk
  split
  · refine .argAs ?_
    split
    · exact .arg fun _ => .fin
    · split
      · exact .fail _
      · exact .fin
      · exact .given
  · exact .fail _
theorem Calm.get {W : World N} {op : Nat} {i : Tab.Ty} : Calm (getTalk W op i) := by
  refine .arg fun _ => ?_
  split
  · exact .fail _
  · exact .fin
theorem Calm.dot {W : World N} {op : Nat} {i : Tab.Ty} : Calm (dotTalk W op i) := by
  refine .arg fun t => ?_
  split
  · refine .argAs ?_
    split
    · exact .given
    · exact .fail _
  · refine .arg fun _ => ?_
    split
    · exact .fail _
    · exact .fin
theorem Calm.rand {W : World N} {fs : List String} {n : Nat} {i : Tab.Ty} : Calm (randTalk W fs i n) := by
  unfold randTalk
  split
  · exact .tell (.argsAs .fin)
  · exact .tell (.argsAs .fin)
  · exact .tell (.argsAs .fin)
  · exact .tell .fin
theorem Calm.range {W : World N} {fs : List String} {n : Nat} {i : Tab.Ty} : Calm (rangeTalk W fs n i) := by
  refine .tell (.argAs ?_)
  split
  · exact .fin
  · exact .argAs .fin
theorem Calm.toStrNum {W : World N} {op n : Nat} {i : Tab.Ty} : Calm (toStrNumTalk W op n i) := by
  unfold toStrNumTalk
  split
  · refine .tell (.cond .fin (.argAs ?_))
    split
    · exact .fail _
    · exact .cond .fin (.fail _)
  · exact .fail _
theorem Calm.ctor {W : World N} {fs : List String} {ty : String} {k : Nat} {i : Tab.Ty} : Calm (ctorTalk W fs ty k i) := by
  unfold ctorTalk
  split
  · exact .fail _
  · exact .argsOf .fin
theorem Calm.open_ {W : World N} {op : Nat} {i : Tab.Ty} : Calm (openTalk W op i) := by
  refine .argAs ?_
  split
  · exact .fin
  · exact .fin
  · exact .fin
  · exact .fail _
theorem Calm.dedup {W : World N} {fs : List String} {n : Nat} {i : Tab.Ty} : Calm (dedupTalk W fs n i) :=
  .tab (.cond .fin (.colNames .fin))
theorem Calm.append {fs : List String} {n : Nat} {i : Tab.Ty} : Calm (appendTalk (N := N) fs n i) := by
  refine .tab ?_
  split
  · exact .fail _
  · exact .tell (.args fun _ => .fin)

theorem talk_calm {W : World N} {op n : Nat} {t : Tab.Ty} (c : Cmd) (hc : c.hasVars = false) : Calm (talk W op n t c) := by
  cases c with
  | num o => exact .variadic
  | addStr => exact .variadic
  | addTab => exact .variadic
  | ceil => exact .unary
  | floor => exact .unary
  | isFinite => exact .unary
  | root => exact .binary
  | cmpNil => exact .ignoring
  | cmpBool => exact .binary
  | cmpNum => exact .binary
  | cmpStr => exact .binary
  | cmpOrd => exact .binary
  | cmp => exact .injected
  | eqNil => exact .ignoring
  | eqBool => exact .binary
  | eqNum => exact .binary
  | eqStr => exact .binary
  | eqOrd => exact .binary
  | eq => exact .injected
  | benchmark => exact .arg fun _ => .fin
  | typify => exact .arg fun _ => .fin
  | lsTab => exact .unary
  | ls => exact .tell (.cond .fin (.argAs .fin))
  | open_ => exact .open_
  | save => exact .tell (.cond (.fail _) (.argAs .fin))
  | and_ => exact .logic
  | or_ => exact .logic
  | not_ => exact .unary
  | if_ => exact .cond (.fail _) .if_
  | append => exact .append
  | appendRow => exact .tab (.tell (.args fun _ => .fin))
  | dedupStr => exact .unary
  | dedupTab => exact .dedup
  | filterStr => exact .cond (.tell (.argAs .fin)) (.fail _)
  | filterTab => exact .filter
  | fold => cases hc
  | foldWhile => cases hc
  | grp => exact .tab (.colNames .fin)
  | grpBy => exact .tab (.arg fun _ => .cond .fin (.fail _))
  | map => cases hc
  | pick => exact .colNames .fin
  | ren => exact .tab .ren
  | renWith => exact .renWith
  | revStr => exact .unary
  | revTab => exact .unary
  | skipStr => exact .binary
  | skipTab => exact .binary
  | sort => exact .tab (.colNames .fin)
  | sortBy => exact .tab (.arg fun _ => .cond .fin (.fail _))
  | takeStr => exact .binary
  | takeTab => exact .binary
  | getRow => exact .getRow
  | get => exact .get
  | dot => exact .dot
  | input => exact .arg fun _ => .tell .fin
  | lenStr => exact .unary
  | lenTab => exact .unary
  | let_ => cases hc
  | nthStr => exact .binary
  | nthTab => exact .cond (.argAs (.arg fun _ => .fin)) (.fail _)
  | rand => exact .rand
  | range => exact .range
  | table => exact .tell (.argsAs .fin)
  | toStrBool => exact .unary
  | toStrNum => exact .toStrNum
  | toStrStr => exact .unary
  | toStr => exact .tell .fin
  | tuple => exact .cond (.fail _) (.args fun _ => .tell (.cond .done (.fail _)))
  | ctor ty k => exact .ctor


/-! ### Commands with variables -/

theorem late_fin {fs : List String} {t : Tab.Ty} {f : Tab.Value N → Act (Tab.Value N)} : (fin fs t f).Late := by
  unfold fin
  split <;> trivial

theorem tight_fin {fs : List String} {t : Tab.Ty} {f : Tab.Value N → Act (Tab.Value N)} : (fin fs t f).Tight := by
  unfold fin
  split <;> trivial

theorem fold_names {fs : List String} {t : Tab.Ty} : (foldTalk (N := N) fs t).Opens ∧ (foldTalk (N := N) fs t).Frees := by
  unfold foldTalk
  split
  · exact ⟨fun _ _ => Calm.argAs .fin, fun _ _ => ⟨rfl, fun _ _ => tight_fin⟩⟩
  · exact ⟨trivial, trivial⟩

theorem map_names {W : World N} {op : Nat} {t : Tab.Ty} : ((mapTalk W op t).NoVars ∨ (mapTalk W op t).Opens) ∧ (mapTalk W op t).Frees := by
  unfold mapTalk tabTalk
  split
  · refine ⟨.inr fun _ _ => ?_, fun _ _ => ?_⟩
    · dsimp only
      split
      · trivial
      · exact (Calm.read fun _ _ => .fin : Calm _)
    · dsimp only
      split
      · trivial
      · exact ⟨rfl, fun _ _ => tight_fin⟩
  · exact ⟨.inl (Calm.fail _), trivial⟩

theorem let_late {fs : List String} {t : Tab.Ty} {total : Nat} {tr : Bool} : ∀ (m : Nat), (letTalk (N := N) fs t total tr m).Late
  | 0 => by
    cases tr with
    | false => exact Calm.fin
    | true => exact (Calm.fin : Calm _)
  | m + 1 => fun _ _ => let_late m

theorem let_names {fs : List String} {t : Tab.Ty} {total m : Nat} {tr : Bool} {k : Talk Tab.Ty (Tab.Value N)}
    (e : k = .tell (.addsVars false) (.tell (.output t) (.tell (.oblige t) (letTalk fs t total tr m)))) : k.Opens ∧ k.Frees := by
  subst e
  exact ⟨let_late m, let_injects m⟩

theorem talk_names {W : World N} {op n : Nat} {t : Tab.Ty} (c : Cmd) (hc : c ≠ .foldWhile) :
    ((talk W op n t c).NoVars ∨ (talk W op n t c).Opens) ∧ (talk W op n t c).Frees := by
  by_cases hv : c.hasVars = true
  · cases c with
    | fold => exact ⟨.inr fold_names.1, fold_names.2⟩
    | foldWhile => exact absurd rfl hc
    | map => exact map_names
    | let_ => exact ⟨.inr (let_names rfl).1, (let_names rfl).2⟩
    | _ => cases hv
  · have h := talk_calm (W := W) (op := op) (n := n) (t := t) c (Bool.eq_false_iff.2 hv)
    exact ⟨.inl h, .of h.inject⟩

theorem talks_prompt {W : World N} {A : Ast Tab.Ty} {names : List String} (hw : A.Wf names) (hn : ∀ op ∈ A.ops, (A.args op).Nodup)
    (hf : ∀ op ∈ A.ops, ∀ t i, A.getImpl op t = some (.intrinsic i) → W.cmd i ≠ some .foldWhile) : ((talks W).builtins A).Prompt A := by
  refine Talks.prompt hw hn fun op ho t i hg => ?_
  cases hc : W.cmd i with
  | none => rw [talks_none hc]; exact ⟨.inl (Calm.fail _), trivial⟩
  | some c =>
    rw [talks_some hc]
    exact talk_names c fun e => hf op ho t i hg (e ▸ hc)

end Verif.Lang
