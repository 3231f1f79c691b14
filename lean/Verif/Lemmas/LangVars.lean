import Verif.Lemmas.LangCmds
/-! The commands with variables do as announced, and all commands announce their variables steadily. -/
namespace Verif.Lang
open Verif Verif.Comp
variable {N : Type} {sh : String → Shape}

/-! ### Closures with variables -/

section
variable {A : Ast Tab.Ty} {u : Tab.Ty} {args : List (Argument Tab.Ty)} {vars : List (Variable Tab.Ty)} {set : List Nat}

/-- A closure does as announced, with these arguments and variables. -/
abbrev Does (sh : String → Shape) (A : Ast Tab.Ty) (u : Tab.Ty) (args : List (Argument Tab.Ty)) (vars : List (Variable Tab.Ty)) : List Nat → Act (Tab.Value N) → Prop :=
  BehavesIn A Tab.Value.ty (okV sh) u args vars

theorem does_ask {k : Nat} {x : Tab.Value N} {next : Tab.Value N → Act (Tab.Value N)} {a : Argument Tab.Ty} (ha : args[k]? = some a) (hx : Fit sh a.inp x)
    (hs : AllSet vars set a.node) (h : ∀ v, Fit sh a.out v → Does sh A u args vars set (next v)) : Does sh A u args vars set (ask k x next) :=
  ⟨fun _ h => (by cases h), ⟨a, ha, hx, hs, h⟩, trivial⟩

theorem does_cast {α : Type} {o : Option α} {next : α → Act (Tab.Value N)} (ho : ∃ a, o = some a) (h : ∀ a, o = some a → Does sh A u args vars set (next a)) :
    Does sh A u args vars set (cast o next) := by
  obtain ⟨a, rfl⟩ := ho
  exact h a rfl

theorem does_res {α : Type} {o : Tab.Res α} {next : α → Act (Tab.Value N)} (h : ∀ a, o = .ok a → Does sh A u args vars set (next a)) :
    Does sh A u args vars set (res o next) := by
  cases o with
  | error e => trivial
  | ok a => exact h a rfl

theorem heard_fin {fs : List String} {t : Tab.Ty} {f : Tab.Value N → Act (Tab.Value N)} {as : List Nat} (h : (fin fs t f).Heard A as args vars u) :
    as = [] ∧ args = [] ∧ vars = [] ∧ u = t ∧ (fin fs t f).closure u args = f := by
  unfold fin at h ⊢
  split at h
  · rename_i e
    rw [if_pos e]
    obtain ⟨h1, h2, h3, h4⟩ := h
    exact ⟨h1, h2, h3, h4, rfl⟩
  · exact h.elim

theorem set_one {y : Variable Tab.Ty} (h : 0 ∈ set) (n : Nat) : AllSet [y] set n := fun z hz slot e =>
  ⟨0, h, y, rfl, by rw [← List.mem_singleton.1 hz]; exact e⟩

theorem set_none {y : Variable Tab.Ty} {b n slot : Nat} (hy : y.site = some (b, slot)) (h : b ≠ n) : AllSet [y] set n := fun z hz slot' e => by
  rw [List.mem_singleton.1 hz, hy] at e
  injection e with e
  injection e with e _
  exact absurd e h

theorem set_two {y z : Variable Tab.Ty} {m m' slot slot' : Nat} (hy : y.site = some (m, slot)) (hz : z.site = some (m', slot')) {n : Nat}
    (h : n = m → 0 ∈ set) (h' : n = m' → 1 ∈ set) : AllSet [y, z] set n := fun x hx k e => by
  rcases List.mem_cons.1 hx with e' | hx
  · subst e'
    rw [hy] at e
    injection e with e
    injection e with e1 e2
    exact ⟨0, h e1.symm, x, rfl, by rw [hy, e1, e2]⟩
  · have e' := List.mem_singleton.1 hx
    subst e'
    rw [hz] at e
    injection e with e
    injection e with e1 e2
    exact ⟨1, h' e1.symm, x, rfl, by rw [hz, e1, e2]⟩

/-! `fold` -/

theorem fold_does {t : Tab.Rows N} (ht : Good sh t) {a b : Argument Tab.Ty} (hi : b.inp = u) (ho : b.out = u) {y : Variable Tab.Ty} (hy : y.want = .tabRow) {slot : Nat}
    (hs : y.site = some (b.node, slot)) (hb : b.node ∉ A.ops) : ∀ (is : List Nat) {set : List Nat} {v : Tab.Value N}, Fit sh u v →
    Does sh A u [a, b] [y] set (foldAct t is v)
  | [], _, v, hv => ⟨hv, fun n hn => set_none hs fun e => hb (e ▸ hn)⟩
  | i :: is, set, v, hv => ⟨⟨y, rfl, by rw [hy]; exact fit_row ht i⟩, does_ask (a := b) rfl (by rw [hi]; exact hv) (set_one (by simp) _) fun w hw =>
      fold_does ht hi ho hy hs hb is (by rw [← ho]; exact hw)⟩

theorem fold_talk {fs : List String} {t0 : Tab.Ty} {as : List Nat} (hn : as.Nodup) (ha : ∀ a ∈ as, a ∉ A.ops) (h : (foldTalk (N := N) fs t0).Heard A as args vars u)
    {x : Tab.Value N} (hx : Fit sh t0 x) : Does sh A u args vars [] ((foldTalk fs t0).closure u args x) := by
  unfold foldTalk at h ⊢
  split at h
  · rename_i e
    rw [if_pos e]
    rw [e] at hx
    obtain ⟨a, as1, args1, rfl, rfl, h1, _, y, vars1, rfl, hy, ⟨b', as2, slot, e2, hs⟩, b, as3, args2, e3, rfl, h3, h4, h5⟩ := h
    obtain ⟨rfl, rfl, rfl, rfl, h6⟩ := heard_fin h5
    cases e2
    injection e3 with e3 e4
    subst e3 e4
    show Does sh A _ [a, b] [y] [] ((fin fs a.out _).closure a.out [] x)
    rw [h6]
    simp only [List.nodup_cons, List.mem_singleton] at hn
    refine does_cast (fit_tab' hx) fun t ht => does_ask (a := a) rfl (by rw [h1 _ rfl]; exact fit_nil) (set_none hs fun e => hn.1 e.symm) fun v hv => ?_
    exact fold_does (fit_asTab hx ht) (h3 _ rfl) (h4 _ rfl) hy hs (ha _ (by simp)) _ hv
  · exact h.elim

/-! `fold-while` -/

theorem foldWhile_does {t : Tab.Rows N} (ht : Good sh t) {a p b : Argument Tab.Ty} (hpi : p.inp = u) (hpo : p.out = .bool) (hi : b.inp = u) (ho : b.out = u)
    {y z : Variable Tab.Ty} (hy : y.want = .tabRow) (hz : z.want = .tabRow) {slot slot' : Nat} (hys : y.site = some (p.node, slot))
    (hzs : z.site = some (b.node, slot')) (hp : p.node ∉ A.ops) (hb : b.node ∉ A.ops) (hne : p.node ≠ b.node) :
    ∀ (is : List Nat) {set : List Nat} {v : Tab.Value N}, Fit sh u v → Does sh A u [a, p, b] [y, z] set (foldWhileAct t is v)
  | [], _, v, hv => ⟨hv, fun n hn => set_two hys hzs (fun e => absurd (e ▸ hn) hp) fun e => absurd (e ▸ hn) hb⟩
  | i :: is, set, v, hv => by
    refine ⟨⟨y, rfl, by rw [hy]; exact fit_row ht i⟩, does_ask (a := p) rfl (by rw [hpi]; exact hv) (set_two hys hzs (fun _ => by simp) fun e => absurd e hne) fun w hw =>
      does_cast (fit_bool' (by rw [← hpo]; exact hw)) fun c _ => ?_⟩
    split
    · exact ⟨⟨z, rfl, by rw [hz]; exact fit_row ht i⟩, does_ask (a := b) rfl (by rw [hi]; exact hv) (set_two hys hzs (fun _ => by simp) fun _ => by simp) fun w hw =>
        foldWhile_does ht hpi hpo hi ho hy hz hys hzs hp hb hne is (by rw [← ho]; exact hw)⟩
    · exact ⟨hv, fun n hn => set_two hys hzs (fun e => absurd (e ▸ hn) hp) fun e => absurd (e ▸ hn) hb⟩

theorem foldWhile_talk {fs : List String} {t0 : Tab.Ty} {as : List Nat} (hn : as.Nodup) (ha : ∀ a ∈ as, a ∉ A.ops)
    (h : (foldWhileTalk (N := N) fs t0).Heard A as args vars u) {x : Tab.Value N} (hx : Fit sh t0 x) :
    Does sh A u args vars [] ((foldWhileTalk fs t0).closure u args x) := by
  unfold foldWhileTalk at h ⊢
  split at h
  · rename_i e
    rw [if_pos e]
    rw [e] at hx
    obtain ⟨a, as1, args1, rfl, rfl, h1, _, y, vars1, rfl, hy, ⟨p', as2, slot, e2, hs⟩, p, as3, args2, e3, rfl, h3, h4,
      z, vars2, rfl, hz, ⟨b', as4, slot', e5, hs'⟩, b, as5, args3, e6, rfl, h7, h8, h9⟩ := h
    obtain ⟨rfl, rfl, rfl, rfl, h10⟩ := heard_fin h9
    cases e2
    injection e3 with e3 e4
    subst e3 e4
    cases e5
    injection e6 with e6 e7
    subst e6 e7
    show Does sh A _ [a, p, b] [y, z] [] ((fin fs a.out _).closure a.out [] x)
    rw [h10]
    simp only [List.nodup_cons, List.mem_singleton, List.mem_cons, not_or] at hn
    refine does_cast (fit_tab' hx) fun t ht => does_ask (a := a) rfl (by rw [h1 _ rfl]; exact fit_nil) (set_two hs hs' (fun e => ?_) fun e => ?_) fun v hv => ?_
    · exact absurd e hn.1.1
    · exact absurd e hn.1.2.1
    · exact foldWhile_does (fit_asTab hx ht) (h3 _ rfl) (h4 _ rfl) (h7 _ rfl) (h8 _ rfl) hy hz hs hs' (ha _ (by simp)) (ha _ (by simp)) hn.2.1.1 _ hv
  · exact h.elim

/-! `map` -/

theorem map_does {t : Tab.Rows N} (ht : Good sh t) {a b : Argument Tab.Ty} {y : Variable Tab.Ty} (hy : y.want = .tabRow) {slot : Nat}
    (hs : y.site = some (b.node, slot)) {c : Nat} {force : Bool} (hf : force = true → b.inp = .nil) : ∀ (is : List Nat) {next : List (Tab.Value N) → Act (Tab.Value N)},
    (∀ vs, (∀ v ∈ vs, okV sh v = true) → Does sh A u [a, b] [y] [] (next vs)) → Does sh A u [a, b] [y] [] (mapRows t c force b.inp is next)
  | [], next, h => h [] (fun _ h => by cases h)
  | i :: is, next, h => by
    refine does_res fun x hx => ⟨fun p hp => ?_, ⟨b, rfl, ?_, set_one (by simp) _, fun v hv => ?_⟩, trivial⟩
    · rw [List.mem_singleton.1 hp]
      exact ⟨y, rfl, by rw [hy]; exact fit_row ht i⟩
    · cases force with
      | true =>
        rw [hf rfl]
        cases hx
        exact fit_nil
      | false =>
        obtain ⟨e, h1, h2⟩ := res_bind hx
        exact fit_cnv (entryAt_all ht h1) (liftErr_ok h2)
    · exact map_does ht hy hs hf is fun vs hvs => h (v :: vs) fun w hw => by
        rcases List.mem_cons.1 hw with e | hw
        · rw [e]; exact hv.2
        · exact hvs w hw

theorem map_talk {W : World N} {op : Nat} {t0 : Tab.Ty} {as : List Nat} (hn : as.Nodup) (ha : ∀ a ∈ as, a ∉ A.ops) (h : (mapTalk W op t0).Heard A as args vars u)
    {x : Tab.Value N} (hx : Fit sh t0 x) : Does sh A u args vars [] ((mapTalk W op t0).closure u args x) := by
  unfold mapTalk tabTalk at h ⊢
  split at h
  · rename_i e
    rw [if_pos e]
    rw [e] at hx
    obtain ⟨a, as1, args1, rfl, rfl, h1, h1', h⟩ := h
    dsimp only at h
    show Does sh A u (a :: args1) vars [] (Talk.closure u _ args1 x)
    dsimp only
    generalize hc : takeFlag "force" (W.flags op) = c at h ⊢
    generalize hm : (if c.1 = true then some (none, c.2) else typeFlag W.typ c.2) = m at h ⊢
    cases m with
    | none => exact h.elim
    | some p =>
      obtain ⟨ty, fs⟩ := p
      obtain ⟨y, vars1, rfl, hy, ⟨b', as2, slot, e2, hs⟩, b, as3, args2, e3, rfl, h3, _, h5⟩ := h
      obtain ⟨rfl, rfl, rfl, rfl, h6⟩ := heard_fin h5
      subst e2
      injection e3 with e3 e4
      subst e3 e4
      show Does sh A _ [a, b] [y] [] ((fin fs _ _).closure _ [] x)
      rw [h6]
      simp only [List.nodup_cons, List.mem_singleton] at hn
      refine does_cast (fit_tab' hx) fun t ht => does_ask (a := a) rfl (by rw [h1 _ rfl]; exact fit_nil) (set_none hs fun e => hn.1 e.symm) fun v hv => does_cast (fit_str' (by rw [← h1' _ rfl]; exact hv)) fun name _ =>
        does_res fun col _ => map_does (fit_asTab hx ht) hy hs (fun hf => h3 _ (by rw [if_pos hf])) _ fun vs hvs => ⟨fit_tab (modCol_all (fit_asTab hx ht) fun r e he => ?_), fun n hn' => ?_⟩
      · split
        · exact he
        · split
          · rename_i w hw
            exact ok_entry (hvs w (List.mem_of_getElem? hw))
          · exact he
      · exact set_none hs fun e => ha b.node (by simp) (e ▸ hn')
  · exact h.elim

/-! `let` -/

/-- The variables of `let` are of the next block. -/
structure Lets (A : Ast Tab.Ty) (t : Tab.Ty) (as : List Nat) (trailing : Bool) (args : List (Argument Tab.Ty)) (vars : List (Variable Tab.Ty)) : Prop where
  inp : ∀ a ∈ args, a.inp = t ∧ a.node ∈ as
  pair : ∀ (j : Nat) (a : Argument Tab.Ty), args[j]? = some a → ∃ x, vars[j]? = some x ∧ x.want = a.out
  trail : ∀ x, vars[args.length]? = some x → x.want = t
  length : vars.length = args.length + if trailing then 1 else 0
  site : ∀ x ∈ vars, ∀ n slot, x.site = some (n, slot) → n ∈ A.ops

theorem let_heard {fs : List String} {t : Tab.Ty} {total : Nat} {tr : Bool} : ∀ (m : Nat) {as : List Nat} {args : List (Argument Tab.Ty)}
    {vars : List (Variable Tab.Ty)}, (letTalk (N := N) fs t total tr m).Heard A as args vars u →
    u = t ∧ args.length = m ∧ Lets A t as tr args vars ∧ (letTalk fs t total tr m).closure u args = fun x : Tab.Value N => letAct x tr total 0
  | 0, as, args, vars, h => by
    cases tr with
    | false =>
      obtain ⟨rfl, rfl, rfl, rfl, h6⟩ := heard_fin h
      exact ⟨rfl, rfl, ⟨fun _ h => (by cases h), (fun j a h => by simp at h), (fun x h => by simp at h), rfl, fun _ h => (by cases h)⟩, h6⟩
    | true =>
      obtain ⟨a, as', x, vars', rfl, rfl, hx, hsite, h⟩ := h
      obtain ⟨rfl, rfl, rfl, rfl, h6⟩ := heard_fin h
      refine ⟨rfl, rfl, ⟨fun _ h => (by cases h), (fun j a h => by simp at h), fun y hy => ?_, rfl, fun y hy => ?_⟩, h6⟩
      · simp at hy; rw [← hy]; exact hx
      · rw [List.mem_singleton.1 hy]; exact hsite
  | m + 1, as, args, vars, h => by
    obtain ⟨a, as1, args1, rfl, rfl, h1, _, b, as2, x, vars1, rfl, rfl, hx, hsite, h⟩ := h
    obtain ⟨h2, h3, ih, h4⟩ := let_heard m h
    refine ⟨h2, by rw [List.length_cons, h3], ⟨fun c hc => ?_, fun j c hc => ?_, fun y hy => ?_, ?_, fun y hy => ?_⟩, h4⟩
    · rcases List.mem_cons.1 hc with e | hc
      · rw [e]; exact ⟨h1 _ rfl, by simp⟩
      · exact ⟨(ih.inp c hc).1, by simp [(ih.inp c hc).2]⟩
    · cases j with
      | zero =>
        simp at hc
        subst hc
        exact ⟨x, rfl, hx⟩
      | succ j => exact ih.pair j c hc
    · exact ih.trail y (by simpa using hy)
    · rw [List.length_cons, List.length_cons, ih.length]; omega
    · rcases List.mem_cons.1 hy with e | hy
      · rw [e]; exact hsite
      · exact ih.site y hy

theorem let_does {t : Tab.Ty} {as : List Nat} {tr : Bool} (h : Lets A t as tr args vars) (ha : ∀ a ∈ as, a ∉ A.ops) {x : Tab.Value N} (hx : Fit sh t x) :
    ∀ (n k : Nat) (set : List Nat), k + n = args.length → (∀ j, j < k → j ∈ set) → Does sh A t args vars set (letAct x tr n k) := by
  have all : ∀ {set : List Nat}, (∀ j, j < vars.length → j ∈ set) → ∀ n, AllSet vars set n := by
    intro set hset n y hy slot e
    obtain ⟨j, hj⟩ := List.getElem?_of_mem hy
    exact ⟨j, hset j (List.getElem?_eq_some_iff.1 hj).1, y, hj, e⟩
  have hlen := h.length
  intro n
  induction n with
  | zero =>
    intro k set hk hset
    have hk' : k = args.length := by omega
    cases tr with
    | true =>
      rw [if_pos rfl] at hlen
      have hk2 : k < vars.length := by omega
      refine ⟨⟨vars[k], List.getElem?_eq_getElem hk2, ?_⟩, hx, fun n _ => all (fun j hj => ?_) n⟩
      · rw [h.trail vars[k] (by rw [← hk']; exact List.getElem?_eq_getElem hk2)]; exact hx
      · by_cases e : j = k
        · rw [e]; simp
        · exact List.mem_cons_of_mem _ (hset j (by omega))
    | false =>
      rw [if_neg (by simp)] at hlen
      exact ⟨hx, fun n _ => all (fun j hj => hset j (by omega)) n⟩
  | succ n ih =>
    intro k set hk hset
    have hlt : k < args.length := by omega
    have hget : args[k]? = some args[k] := List.getElem?_eq_getElem hlt
    obtain ⟨h1, h2⟩ := h.inp _ (List.getElem_mem hlt)
    obtain ⟨y, hy, hw⟩ := h.pair k _ hget
    refine does_ask hget (by rw [h1]; exact hx) (fun z hz slot e => absurd (h.site z hz _ _ e) (ha _ h2)) fun v hv => ?_
    exact ⟨⟨y, hy, by rw [hw]; exact hv⟩, ih (k + 1) (k :: set) (by omega) fun j hj => by
      by_cases e : j = k
      · rw [e]; simp
      · exact List.mem_cons_of_mem _ (hset j (by omega))⟩

end

/-! ### All commands -/

theorem talk_does {W : World N} (hW : W.Ok) {A : Ast Tab.Ty} {op n : Nat} {t0 u : Tab.Ty} {as : List Nat} (hn : as.Nodup) (ha : ∀ a ∈ as, a ∉ A.ops)
    {args : List (Argument Tab.Ty)} {vars : List (Variable Tab.Ty)} (c : Cmd) (hp : c = .pick → t0 = .tab) (h : (talk W op n t0 c).Heard A as args vars u) {x : Tab.Value N}
    (hx : Fit W.shape t0 x) : Does W.shape A u args vars [] ((talk W op n t0 c).closure u args x) := by
  by_cases hc : c.hasVars = true
  · cases c with
    | fold => exact fold_talk hn ha h hx
    | foldWhile => exact foldWhile_talk hn ha h hx
    | map => exact map_talk hn ha h hx
    | let_ =>
      obtain ⟨h1, h2, h3, h4⟩ := let_heard _ h
      show Does W.shape A u args vars [] ((letTalk (W.flags op) t0 (n / 2) (n % 2 == 1) (n / 2)).closure u args x)
      rw [h4, h1]
      exact let_does h3 ha hx _ 0 [] (by omega) (fun j hj => absurd hj (by omega))
    | _ => cases hc
  · obtain ⟨rfl, h2⟩ := (talk_sound (t0 := t0) (op := op) (n := n) hW (Bool.eq_false_iff.2 hc) hp).plays h
    exact Plays.behaves (h2 x hx)

theorem talks_some {W : World N} {i : Nat} {c : Cmd} (h : W.cmd i = some c) (op n : Nat) (t : Tab.Ty) : talks W i op n t = talk W op n t c := by
  unfold talks
  rw [h]

theorem talks_none {W : World N} {i : Nat} (h : W.cmd i = none) (op n : Nat) (t : Tab.Ty) : talks W i op n t = .fail true := by
  unfold talks
  rw [h]

theorem exec_sound {W : World N} (hW : W.Ok) {A : Ast Tab.Ty} {names : List String} (hw : A.Wf names) (ht : Tidy W A) (lit : Nat → Tab.Value N) :
    (exec W A lit).SoundIn (okV W.shape) A ((talks W).builtins A) := by
  intro s i op t u ho hg hs hr args vars hargs hvars x hx
  obtain ⟨r, an, hq, hend, hfin⟩ := runBuiltin_end hr
  have := Talk.heard hs hw (talks W i op (A.args op).length t) (A.args op) rfl hq hend hfin
  rw [show args = _ from hargs, show vars = _ from hvars]
  show BehavesIn A Tab.Value.ty (okV W.shape) u _ _ [] ((talks W i op (A.args op).length t).closure u _ x)
  unfold Talks.builtins
  cases hc : W.cmd i with
  | none => rw [talks_none hc] at this; exact this.elim
  | some c =>
    rw [talks_some hc] at this ⊢
    exact talk_does hW (ht.args op) (hw.arg_not_op op) c (fun e => ht.pick op ho t i hg (e ▸ hc)) this hx

/-! ### Which variables are announced -/

/-- No variables but `$row`. -/
structure Tame (k : Talk Tab.Ty (Tab.Value N)) : Prop where
  row : k.Injects fun name v => name = "row" ∧ v = .tabRow
  noBind : k.NoBind

theorem Tame.fail (h : Bool) : Tame (N := N) (.fail h) := ⟨trivial, trivial⟩
theorem Tame.done {t : Tab.Ty} {an : List Tab.Ty} {f : Tab.Value N → Act (Tab.Value N)} : Tame (.done t an f) := ⟨trivial, trivial⟩
theorem Tame.given {f : Tab.Ty → Tab.Value N → Act (Tab.Value N)} : Tame (.given f) := ⟨trivial, trivial⟩
theorem Tame.tell {q : Say Tab.Ty} {k : Talk Tab.Ty (Tab.Value N)} (h : Tame k) : Tame (.tell q k) := ⟨h.1, h.2⟩
theorem Tame.read {l : Bool} {t : Option Tab.Ty} {u : Option Tab.Ty → Option Tab.Ty} {k : Tab.Ty → Tab.Ty → Talk Tab.Ty (Tab.Value N)} (h : ∀ i o, Tame (k i o)) :
    Tame (.read l t u k) := ⟨fun i o => (h i o).1, fun i o => (h i o).2⟩
theorem Tame.inject {k : Talk Tab.Ty (Tab.Value N)} (h : Tame k) : Tame (.inject "row" .tabRow k) := ⟨⟨⟨rfl, rfl⟩, h.1⟩, h.2⟩
theorem Tame.arg {t : Tab.Ty} {k : Tab.Ty → Talk Tab.Ty (Tab.Value N)} (h : ∀ o, Tame (k o)) : Tame (.arg t k) := .read fun _ o => h o
theorem Tame.argAs {t u : Tab.Ty} {k : Talk Tab.Ty (Tab.Value N)} (h : Tame k) : Tame (.argAs t u k) := .read fun _ _ => h
theorem Tame.args {t : Tab.Ty} : ∀ {n : Nat} {k : List Tab.Ty → Talk Tab.Ty (Tab.Value N)}, (∀ us, Tame (k us)) → Tame (.args t n k)
  | 0, _, h => h []
  | _ + 1, _, h => .arg fun _ => .args fun _ => h _
theorem Tame.argsAs {t u : Tab.Ty} {k : Talk Tab.Ty (Tab.Value N)} : ∀ {n : Nat}, Tame k → Tame (.argsAs t u n k)
  | 0, h => h
  | _ + 1, h => .argAs (.argsAs h)
theorem Tame.argsOf {t : Tab.Ty} {k : Talk Tab.Ty (Tab.Value N)} : ∀ {us : List Tab.Ty}, Tame k → Tame (.argsOf t us k)
  | [], h => h
  | _ :: _, h => .argAs (.argsOf h)
theorem Tame.fin {fs : List String} {t : Tab.Ty} {f : Tab.Value N → Act (Tab.Value N)} : Tame (Lang.fin fs t f) := by
  unfold Lang.fin
  split
  · exact .done
  · exact .fail _
theorem _root_.Verif.Comp.Talk.Injects.fin {P : String → Tab.Ty → Prop} {fs : List String} {t : Tab.Ty} {f : Tab.Value N → Act (Tab.Value N)} :
    (Lang.fin fs t f).Injects P := by
  unfold Lang.fin
  split <;> trivial
theorem Tame.cond {p : Prop} [Decidable p] {a b : Talk Tab.Ty (Tab.Value N)} (ha : Tame a) (hb : Tame b) : Tame (if p then a else b) := by
  split
  · exact ha
  · exact hb
theorem Tame.tab {t : Tab.Ty} {k : Talk Tab.Ty (Tab.Value N)} (h : Tame k) : Tame (tabTalk t k) := .cond (.tell h) (.fail _)
theorem Tame.colNames {n : Nat} {k : Talk Tab.Ty (Tab.Value N)} (h : Tame k) : Tame (Lang.colNames n k) := .cond (.fail _) (.argsAs h)
theorem Tame.unary {i t u : Tab.Ty} {says : Bool} {f : Tab.Value N → Got (Tab.Value N)} {fs : List String} : Tame (Lang.unary i t u says f fs) := by
  unfold Lang.unary
  repeat' first | exact .fin | exact .fail _ | exact .tell .fin | split
theorem Tame.binary {i t a u : Tab.Ty} {says : Bool} {f : Tab.Value N → Tab.Value N → Got (Tab.Value N)} {fs : List String} : Tame (Lang.binary i t a u says f fs) := by
  unfold Lang.binary
  dsimp only
  repeat' first | exact .argAs .fin | exact .fail _ | exact .tell (.argAs .fin) | split
theorem Tame.if_ {fs : List String} {t : Tab.Ty} {total : Nat} : ∀ {n : Nat} {us : List Tab.Ty}, Tame (ifTalk (N := N) fs t total n us)
  | 0, _ => .arg fun _ => .cond .fin (.fail _)
  | _ + 1, _ => .argAs (.arg fun _ => .if_)
theorem Tame.ren {W : World N} {fs : List String} : ∀ {n : Nat} {ms : List Bool}, Tame (renTalk W fs n ms)
  | 0, _ => .fin
  | _ + 1, _ => .read fun _ _ => .argAs .ren
theorem Tame.variadic {t i : Tab.Ty} {agg : Tab.Value N → Tab.Value N → Got (Tab.Value N)} {fs : List String} {n : Nat} : Tame (Lang.variadic t agg fs n i) :=
  .cond (.tell (.cond (.fail _) (.tell (.argsAs .fin)))) (.fail _)
theorem Tame.ignoring {u i : Tab.Ty} {v : Tab.Value N} {fs : List String} : Tame (Lang.ignoring u v fs i) :=
  .cond (.tell (.argAs .fin)) (.fail _)
theorem Tame.injected {u i : Tab.Ty} {W : World N} {code : String → Option (Tab.Value N → Tab.Value N → Option (Tab.Value N))} {fs : List String} :
    Tame (Lang.injected u W code fs i) := by
  unfold Lang.injected
  split
  · rename_i name
    refine .tell (.cond (.argAs ?_) (.fail _))
    split
    · exact .fail _
    · exact .fin
  · exact .tell (.fail _)
theorem Tame.logic {stop : Bool} {fs : List String} {n : Nat} {i : Tab.Ty} : Tame (Lang.logic (N := N) stop fs n i) := by
  cases n with
  | zero => exact .tell (.fail _)
  | succ n => exact .tell (.argsAs .fin)
theorem Tame.filter {W : World N} {op n : Nat} {i : Tab.Ty} : Tame (filterTalk W op n i) := by
  refine .tab ?_
  split
  · exact .argAs .fin
  · split
    · exact .argAs .fin
    · refine .argAs ?_
      split
      · exact .fail _
      · exact .read fun _ _ => .fin
theorem Tame.map {W : World N} {op : Nat} {i : Tab.Ty} : Tame (mapTalk W op i) := by
  refine .tab (.tell (.read fun _ _ => ?_))
  dsimp only
  split
  · exact .fail _
  · exact .inject (.tell (.read fun _ _ => .fin))
theorem Tame.renWith {W : World N} {op : Nat} {i : Tab.Ty} : Tame (renWithTalk W op i) := by
  refine .tab (.argAs ?_)
  split
  · exact .fail _
  · exact .read fun _ _ => .fin
theorem Tame.getRow {W : World N} {op n : Nat} {i : Tab.Ty} : Tame (getRowTalk W op n i) := by
  unfold getRowTalk
  split
  · refine .argAs ?_
    split
    · exact .arg fun _ => .fin
    · split
      · exact .fail _
      · exact .fin
      · exact .given
  · exact .fail _
theorem Tame.get {W : World N} {op : Nat} {i : Tab.Ty} : Tame (getTalk W op i) := by
  refine .arg fun _ => ?_
  split
  · exact .fail _
  · exact .fin
theorem Tame.dot {W : World N} {op : Nat} {i : Tab.Ty} : Tame (dotTalk W op i) := by
  refine .arg fun t => ?_
  split
  · refine .argAs ?_
    split
    · exact .given
    · exact .fail _
  · refine .arg fun _ => ?_
    split
    · exact .fail _
    · exact .fin
theorem Tame.rand {W : World N} {fs : List String} {n : Nat} {i : Tab.Ty} : Tame (randTalk W fs i n) := by
  unfold randTalk
  split
  · exact .tell (.argsAs .fin)
  · exact .tell (.argsAs .fin)
  · exact .tell (.argsAs .fin)
  · exact .tell .fin
theorem Tame.range {W : World N} {fs : List String} {n : Nat} {i : Tab.Ty} : Tame (rangeTalk W fs n i) := by
  refine .tell (.argAs ?_)
  split
  · exact .fin
  · exact .argAs .fin
theorem Tame.toStrNum {W : World N} {op n : Nat} {i : Tab.Ty} : Tame (toStrNumTalk W op n i) := by
  unfold toStrNumTalk
  split
  · refine .tell (.cond .fin (.argAs ?_))
    split
    · exact .fail _
    · exact .cond .fin (.fail _)
  · exact .fail _
theorem Tame.ctor {W : World N} {fs : List String} {ty : String} {k : Nat} {i : Tab.Ty} : Tame (ctorTalk W fs ty k i) := by
  unfold ctorTalk
  split
  · exact .fail _
  · exact .argsOf .fin
theorem Tame.open_ {W : World N} {op : Nat} {i : Tab.Ty} : Tame (openTalk W op i) := by
  refine .argAs ?_
  split
  · exact .fin
  · exact .fin
  · exact .fin
  · exact .fail _
theorem Tame.dedup {W : World N} {fs : List String} {n : Nat} {i : Tab.Ty} : Tame (dedupTalk W fs n i) :=
  .tab (.cond .fin (.colNames .fin))
theorem Tame.append {fs : List String} {n : Nat} {i : Tab.Ty} : Tame (appendTalk (N := N) fs n i) := by
  refine .tab ?_
  split
  · exact .fail _
  · exact .tell (.args fun _ => .fin)

theorem talk_tame {W : World N} {op n : Nat} {t : Tab.Ty} (c : Cmd) (hc : c ≠ .let_) : Tame (talk W op n t c) := by
  cases c with
  | num o => exact .variadic
  | addStr => exact .variadic
  | addTab => exact .variadic
  | ceil => exact .unary
  | floor => exact .unary
  | isFinite => exact .unary
  | root => exact .binary
  | cmpNil => exact .ignoring
  | cmpBool => exact .binary
  | cmpNum => exact .binary
  | cmpStr => exact .binary
  | cmpOrd => exact .binary
  | cmp => exact .injected
  | eqNil => exact .ignoring
  | eqBool => exact .binary
  | eqNum => exact .binary
  | eqStr => exact .binary
  | eqOrd => exact .binary
  | eq => exact .injected
  | benchmark => exact .arg fun _ => .fin
  | typify => exact .arg fun _ => .fin
  | lsTab => exact .unary
  | ls => exact .tell (.cond .fin (.argAs .fin))
  | open_ => exact .open_
  | save => exact .tell (.cond (.fail _) (.argAs .fin))
  | and_ => exact .logic
  | or_ => exact .logic
  | not_ => exact .unary
  | if_ => exact .cond (.fail _) .if_
  | append => exact .append
  | appendRow => exact .tab (.tell (.args fun _ => .fin))
  | dedupStr => exact .unary
  | dedupTab => exact .dedup
  | filterStr => exact .cond (.tell (.argAs .fin)) (.fail _)
  | filterTab => exact .filter
  | fold => exact .tell (.cond (.read fun _ _ => .tell (.inject (.tell (.argAs .fin)))) (.fail _))
  | foldWhile => exact .cond (.arg fun _ => .tell (.inject (.argAs (.inject (.argAs .fin))))) (.fail _)
  | grp => exact .tab (.colNames .fin)
  | grpBy => exact .tab (.arg fun _ => .cond .fin (.fail _))
  | map => exact .map
  | pick => exact .colNames .fin
  | ren => exact .tab .ren
  | renWith => exact .renWith
  | revStr => exact .unary
  | revTab => exact .unary
  | skipStr => exact .binary
  | skipTab => exact .binary
  | sort => exact .tab (.colNames .fin)
  | sortBy => exact .tab (.arg fun _ => .cond .fin (.fail _))
  | takeStr => exact .binary
  | takeTab => exact .binary
  | getRow => exact .getRow
  | get => exact .get
  | dot => exact .dot
  | input => exact .arg fun _ => .tell .fin
  | lenStr => exact .unary
  | lenTab => exact .unary
  | let_ => exact absurd rfl hc
  | nthStr => exact .binary
  | nthTab => exact .cond (.argAs (.arg fun _ => .fin)) (.fail _)
  | rand => exact .rand
  | range => exact .range
  | table => exact .tell (.argsAs .fin)
  | toStrBool => exact .unary
  | toStrNum => exact .toStrNum
  | toStrStr => exact .unary
  | toStr => exact .tell .fin
  | tuple => exact .cond (.fail _) (.args fun _ => .tell (.cond .done (.fail _)))
  | ctor ty k => exact .ctor

/-! `let` -/

section
variable {A : Ast Tab.Ty} {s : S Tab.Ty} {op : Nat}

theorem introduces_takes {l : Bool} {t : Option Tab.Ty} {u : Option Tab.Ty → Option Tab.Ty} {o : Option Tab.Ty} {a : Nat} {as : List Nat} {cur : Option Nat}
    {qs : List (Req Tab.Ty)} : introduces A op (a :: as) cur (takes l t u o ++ qs) = introduces A op as (some a) qs := by
  unfold takes
  cases l <;> cases t <;> cases u o <;> simp [introduces, introduces1, isNext]

/-- The variables `let` sets, with their types. -/
def letBinds (s : S Tab.Ty) (t : Tab.Ty) : List Nat → List (Nat × Tab.Ty)
  | [] => []
  | [b] => [(b, t)]
  | a :: b :: as => (b, ((s.tg.kn a .out).ty).getD t) :: letBinds s t as

theorem letBinds_mem {t : Tab.Ty} : ∀ (l : List Nat), (letBinds s t l).map (·.1) = binders l
  | [] => rfl
  | [_] => rfl
  | _ :: _ :: l => by simp [letBinds, binders, letBinds_mem l]

theorem let_injects {fs : List String} {t : Tab.Ty} {total : Nat} {tr : Bool} {P : String → Tab.Ty → Prop} : ∀ (m : Nat), (letTalk (N := N) fs t total tr m).Injects P
  | 0 => by
    cases tr with
    | false => exact Talk.Injects.fin
    | true => exact Talk.Injects.fin
  | m + 1 => fun _ _ => let_injects m

theorem run_fin {fs : List String} {t : Tab.Ty} {f : Tab.Value N → Act (Tab.Value N)} (as : List Nat) : ((fin fs t f).run A s op as).1 = [] := by
  unfold fin
  split <;> rfl

theorem let_introduces {fs : List String} {t : Tab.Ty} {total : Nat} {tr : Bool} {n : Nat} {name : String} {v : Tab.Ty} : ∀ (m : Nat) (as : List Nat) {cur : Option Nat},
    as.length = 2 * m + (if tr then 1 else 0) → (n, name, v) ∈ introduces A op as cur ((letTalk (N := N) fs t total tr m).run A s op as).1 →
    ∃ b, (b, v) ∈ letBinds s t as ∧ A.var b = some name
  | 0, as, cur, hl, h => by
    cases tr with
    | false =>
      replace h : (n, name, v) ∈ introduces A op as cur (.varsAdded :: ((fin fs t fun x : Tab.Value N => letAct x false total 0).run A s op as).1) := h
      rw [run_fin] at h
      simp [introduces, introduces1, isNext] at h
    | true =>
      match as, hl with
      | [b], _ =>
        replace h : (n, name, v) ∈ introduces A op [b] cur (.next :: .createVar t :: .varsAdded :: ((fin fs t fun x : Tab.Value N => letAct x true total 0).run A s op []).1) := h
        rw [run_fin] at h
        simp only [introduces, introduces1, isNext, List.head?_cons, Option.bind_some, List.append_nil, List.nil_append, if_true, if_false,
          Bool.false_eq_true] at h
        split at h
        · rename_i w m hv hn
          simp only [List.mem_singleton, Prod.mk.injEq] at h
          exact ⟨b, by simp [letBinds, h.2.2], by rw [hv, h.2.1]⟩
        · cases h
  | m + 1, as, cur, hl, h => by
    match as, hl with
    | [], hl => simp at hl; omega
    | [_], hl => simp at hl; split at hl <;> omega
    | a :: b :: as, hl =>
      rcases run_read (A := A) (s := s) (op := op) (V := Tab.Value N) (fun _ u => .bind u (letTalk fs t total tr m)) false (some t) (fun _ => none) a (b :: as) with
        ⟨i, o, _, ho, e⟩ | ⟨_, e⟩
      · replace h : (n, name, v) ∈ introduces A op (a :: b :: as) cur ((Talk.read false (some t) (fun _ => none) fun _ u => .bind u (letTalk (N := N) fs t total tr m)).run A s op (a :: b :: as)).1 := h
        rw [e] at h
        dsimp only at h
        rw [introduces_takes] at h
        replace h : (n, name, v) ∈ introduces A op (b :: as) (some a) (.next :: .createVar o :: ((letTalk (N := N) fs t total tr m).run A s op as).1) := h
        simp only [introduces, introduces1, isNext, List.head?_cons, List.tail_cons, Option.bind_some, List.nil_append, if_true, if_false,
          Bool.false_eq_true] at h
        rcases List.mem_append.1 h with h | h
        · split at h
          · rename_i w m hv hn
            simp only [List.mem_singleton, Prod.mk.injEq] at h
            exact ⟨b, by simp [letBinds, h.2.2, ho], by rw [hv, h.2.1]⟩
          · cases h
        · obtain ⟨b', h1, h2⟩ := let_introduces m as (by simp only [List.length_cons] at hl; omega) h
          exact ⟨b', by simp [letBinds, h1], h2⟩
      · replace h : (n, name, v) ∈ introduces A op (a :: b :: as) cur ((Talk.read false (some t) (fun _ => none) fun _ u => .bind u (letTalk (N := N) fs t total tr m)).run A s op (a :: b :: as)).1 := h
        rw [e] at h
        dsimp only at h
        rw [← List.append_nil (takes _ _ _ _), introduces_takes] at h
        cases h

end

/-! ### Names and steadiness -/

theorem talks_named {W : World N} (A : Ast Tab.Ty) {names : List String} (h : "row" ∈ names) : ((talks W).builtins A).Named names := by
  intro s i op t name u hm
  have key : name = "row" ∧ u = .tabRow := by
    refine Talk.run_inject (P := fun name v => name = "row" ∧ v = .tabRow) (talks W i op (A.args op).length t) (A.args op) ?_ hm
    cases hc : W.cmd i with
    | none => rw [talks_none hc]; trivial
    | some c =>
      rw [talks_some hc]
      by_cases e : c = .let_
      · subst e
        exact let_injects _
      · exact (talk_tame c e).1
  rw [key.1]
  exact h

theorem talks_steady {W : World N} {A : Ast Tab.Ty} {names : List String} (hw : A.Wf names) (ht : Tidy W A) : ((talks W).builtins A).Steady A := by
  refine ⟨again_of_follows hw fun s s' i op t u _ _ hs hs' hw' _ => Talk.follows hs hw' _ _ rfl, fun s i op t u ho hg hs hr n name v w h h' => ?_⟩
  cases hc : W.cmd i with
  | none =>
    have e : ((talks W).builtins A s i op t).1 = [] := by
      unfold Talks.builtins
      rw [talks_none hc]
      rfl
    rw [Builtins.introduces, e] at h
    cases h
  | some c =>
    have e : (talks W).builtins A s i op t = (talk W op (A.args op).length t c).run A s op (A.args op) := by
      unfold Talks.builtins
      rw [talks_some hc]
    rw [Builtins.introduces, e] at h h'
    by_cases hl : c = .let_
    · subst hl
      have key : ∀ {v : Tab.Ty}, (n, name, v) ∈ introduces A op (A.args op) none ((talk W op (A.args op).length t .let_).run A s op (A.args op)).1 →
          ∃ b, (b, v) ∈ letBinds s t (A.args op) ∧ A.var b = some name := by
        intro v h
        refine let_introduces (op := op) (n := n) (cur := none) (fs := W.flags op) (total := (A.args op).length / 2) (tr := (A.args op).length % 2 == 1)
          (N := N) ((A.args op).length / 2) (A.args op) ?_ ?_
        · split
          · rename_i h; have := eq_of_beq h; omega
          · rename_i h
            have : ¬ (A.args op).length % 2 = 1 := fun e => h (beq_iff_eq.2 e)
            omega
        · simpa [talk, Talk.run, Say.req, introduces, introduces1, isNext] using h
      obtain ⟨b, h1, h2⟩ := key h
      obtain ⟨b', h3, h4⟩ := key h'
      have mem : ∀ {b v}, (b, v) ∈ letBinds s t (A.args op) → b ∈ binders (A.args op) := fun h => by
        rw [← letBinds_mem (s := s) (t := t)]; exact List.mem_map.2 ⟨_, h, rfl⟩
      have e := ht.lets op ho t i hg hc b (mem h1) b' (mem h3) name h2 h4
      subst e
      exact nodup_fst (by rw [letBinds_mem]; exact (binders_sub _).nodup (ht.args op)) h1 h3
    · have key : ∀ {v : Tab.Ty}, (n, name, v) ∈ introduces A op (A.args op) none ((talk W op (A.args op).length t c).run A s op (A.args op)).1 → v = .tabRow := by
        intro v h
        rcases introduces_req h with h | h
        · exact absurd h (Talk.run_bind _ _ (talk_tame c hl).2)
        · exact (Talk.run_inject _ _ (talk_tame c hl).1 h).2
      rw [key h, key h']

end Verif.Lang
