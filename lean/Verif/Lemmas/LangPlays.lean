import Verif.Lemmas.LangSim
import Verif.Lemmas.LangOk
import Verif.Lemmas.Talk
/-! Closures of commands without variables. -/
namespace Verif.Comp
open Verif
set_option linter.unusedSectionVars false
variable {T V : Type} [DecidableEq T]

/-- A closure does as announced, with arguments of these input and output types, and no variables. -/
def Plays (fits : T → V → Prop) (u : T) (ios : List (T × T)) : Act V → Prop
  | .done v => fits u v
  | .fail => True
  | .wrong => False
  | .set _ _ _ => False
  | .resolve k sets x next => sets = [] ∧
    (∃ p, ios[k]? = some p ∧ fits p.1 x ∧ ∀ v, fits p.2 v → Plays fits u ios (next (some v))) ∧ Plays fits u ios (next none)

theorem Plays.behaves {A : Ast T} {ty : V → T} {ok : V → Bool} {u : T} {args : List (Argument T)} : ∀ {a : Act V} {set : List Nat},
    Plays (Fits ty ok) u (args.map fun a => (a.inp, a.out)) a → BehavesIn A ty ok u args [] set a
  | .done _, _, h => ⟨h, fun n _ x hx => by cases hx⟩
  | .fail, _, _ => trivial
  | .wrong, _, h => h.elim
  | .resolve k sets x next, set, h => by
    obtain ⟨rfl, ⟨p, h1, h2, h3⟩, h4⟩ := h
    rw [List.getElem?_map] at h1
    cases ha : args[k]? with
    | none => rw [ha] at h1; cases h1
    | some a =>
      rw [ha] at h1
      cases h1
      exact ⟨fun _ h => (by cases h), ⟨a, ha, h2, (fun x hx => by cases hx), fun v hv => Plays.behaves (h3 v hv)⟩, Plays.behaves h4⟩

/-- The closure a conversation ends with does as announced, whatever the arguments turn out to be. It asks for no variables. -/
def Talk.Sound (fits : T → V → Prop) (t0 : T) : List (T × T) → Talk T V → Prop
  | _, .fail _ => True
  | pre, .done u _ f => ∀ x, fits t0 x → Plays fits u pre (f x)
  | pre, .given f => ∀ u x, fits t0 x → Plays fits u pre (f u x)
  | pre, .tell _ k => k.Sound fits t0 pre
  | pre, .read _ t v k => ∀ i o, (∀ x, t = some x → i = x) → (∀ x, v (some o) = some x → o = x) → (k i o).Sound fits t0 (pre ++ [(i, o)])
  | _, .inject _ _ _ => False
  | _, .bind _ _ => False

theorem Talk.Sound.plays {A : Ast T} {fits : T → V → Prop} {t0 : T} : ∀ {k : Talk T V} {as : List Nat} {args : List (Argument T)} {vars : List (Variable T)}
    {u : T} {pre : List (T × T)}, k.Sound fits t0 pre → k.Heard A as args vars u →
    vars = [] ∧ ∀ x, fits t0 x → Plays fits u (pre ++ args.map fun a => (a.inp, a.out)) (k.closure u args x)
  | .fail _, _, _, _, _, _, _, hh => hh.elim
  | .done .., _, _, _, _, _, h, hh => by
    obtain ⟨_, rfl, rfl, rfl⟩ := hh
    refine ⟨rfl, fun x hx => ?_⟩
    rw [List.map_nil, List.append_nil]
    exact h x hx
  | .given _, _, _, _, _, _, h, hh => by
    obtain ⟨_, rfl, rfl⟩ := hh
    refine ⟨rfl, fun x hx => ?_⟩
    rw [List.map_nil, List.append_nil]
    exact h _ x hx
  | .tell _ k, _, _, _, _, _, h, hh => Talk.Sound.plays (k := k) h hh
  | .read .., _, _, _, _, _, h, hh => by
    obtain ⟨a, as', args', rfl, rfl, h1, h2, h3⟩ := hh
    obtain ⟨h4, h5⟩ := Talk.Sound.plays (h a.inp a.out h1 h2) h3
    refine ⟨h4, fun x hx => ?_⟩
    have := h5 x hx
    rw [List.append_assoc] at this
    exact this

section
variable {fits : T → V → Prop} {t0 : T} {pre : List (T × T)}

theorem sound_argAs {t u : T} {k : Talk T V} (h : k.Sound fits t0 (pre ++ [(t, u)])) : (Talk.argAs t u k).Sound fits t0 pre := by
  intro i o hi ho
  rw [hi t rfl, ho u rfl]
  exact h

theorem sound_arg {t : T} {k : T → Talk T V} (h : ∀ o, (k o).Sound fits t0 (pre ++ [(t, o)])) : (Talk.arg t k).Sound fits t0 pre := by
  intro i o hi _
  rw [hi t rfl]
  exact h o

theorem sound_argsAs {t u : T} {k : Talk T V} : ∀ (n : Nat) {pre : List (T × T)}, k.Sound fits t0 (pre ++ List.replicate n (t, u)) →
    (Talk.argsAs t u n k).Sound fits t0 pre
  | 0, pre, h => by rw [List.replicate_zero, List.append_nil] at h; exact h
  | n + 1, pre, h => sound_argAs (sound_argsAs n (by rw [List.append_assoc]; exact h))

theorem sound_args {t : T} : ∀ (n : Nat) {k : List T → Talk T V} {pre : List (T × T)},
    (∀ us, us.length = n → (k us).Sound fits t0 (pre ++ us.map fun u => (t, u))) → (Talk.args t n k).Sound fits t0 pre
  | 0, k, pre, h => by
    have := h [] rfl
    rw [List.map_nil, List.append_nil] at this
    exact this
  | n + 1, k, pre, h => sound_arg fun o => sound_args n fun us hus => by
    have := h (o :: us) (by rw [List.length_cons, hus])
    rw [List.append_assoc]
    exact this

theorem sound_argsOf {t : T} {k : Talk T V} : ∀ (us : List T) {pre : List (T × T)}, k.Sound fits t0 (pre ++ us.map fun u => (t, u)) →
    (Talk.argsOf t us k).Sound fits t0 pre
  | [], pre, h => by rw [List.map_nil, List.append_nil] at h; exact h
  | u :: us, pre, h => sound_argAs (sound_argsOf us (by rw [List.append_assoc]; exact h))

end

end Verif.Comp

namespace Verif.Lang
open Verif Verif.Comp
variable {N : Type}

/-- Well-formed values of a type. -/
abbrev Fit (sh : String → Shape) : Tab.Ty → Tab.Value N → Prop := Fits Tab.Value.ty (okV sh)

section
variable {sh : String → Shape} {u : Tab.Ty} {ios : List (Tab.Ty × Tab.Ty)}

theorem fit_nil : Fit (N := N) sh .nil .nil := ⟨rfl, rfl⟩
theorem fit_bool (b : Bool) : Fit (N := N) sh .bool (.bool b) := ⟨rfl, rfl⟩
theorem fit_num (n : N) : Fit sh .num (.num n) := ⟨rfl, rfl⟩
theorem fit_str (s : String) : Fit (N := N) sh .str (.str s) := ⟨rfl, rfl⟩

/-- All cells are well-formed. -/
abbrev Good (sh : String → Shape) (t : Tab.Rows N) : Prop := All (fun e => okE sh e = true) t

theorem fit_tab {t : Tab.Rows N} (h : Good sh t) : Fit sh .tab (.tab t) := ⟨rfl, by rw [okV]; exact okRs_iff.2 h⟩
theorem fit_row {t : Tab.Rows N} (h : Good sh t) (i : Nat) : Fit sh .tabRow (.row t i) := ⟨rfl, by rw [okV]; exact okRs_iff.2 h⟩
theorem ok_nil : okE (N := N) sh .nil = true := rfl
theorem ok_str (s : String) : okE (N := N) sh (.obj (.str s)) = true := rfl

theorem plays_fail : Plays (Fit (N := N) sh) u ios .fail := trivial

theorem plays_opt {α : Type} {o : Option α} {next : α → Act (Tab.Value N)} (h : ∀ a, o = some a → Plays (Fit sh) u ios (next a)) :
    Plays (Fit sh) u ios (opt o next) := by
  cases o with
  | none => trivial
  | some a => exact h a rfl

theorem plays_cast {α : Type} {o : Option α} {next : α → Act (Tab.Value N)} (ho : ∃ a, o = some a) (h : ∀ a, o = some a → Plays (Fit sh) u ios (next a)) :
    Plays (Fit sh) u ios (cast o next) := by
  obtain ⟨a, rfl⟩ := ho
  exact h a rfl

/-- Something is as it should be, unless it is an error. -/
def Got.Is {α : Type} (P : α → Prop) : Got α → Prop
  | .ok a => P a
  | .err => True
  | .wrong => False

theorem plays_got {α : Type} {o : Got α} {P : α → Prop} {next : α → Act (Tab.Value N)} (ho : o.Is P) (h : ∀ a, P a → Plays (Fit sh) u ios (next a)) :
    Plays (Fit sh) u ios (got o next) := by
  cases o with
  | err => trivial
  | wrong => exact ho.elim
  | ok a => exact h a ho

theorem is_bind {α β : Type} {o : Got α} {f : α → Got β} {P : α → Prop} {Q : β → Prop} (ho : o.Is P) (h : ∀ a, P a → (f a).Is Q) : (o.bind f).Is Q := by
  cases o with
  | err => trivial
  | wrong => exact ho.elim
  | ok a => exact h a ho

theorem is_map {α β : Type} {o : Got α} {f : α → β} {P : α → Prop} {Q : β → Prop} (ho : o.Is P) (h : ∀ a, P a → Q (f a)) : (o.map f).Is Q :=
  is_bind ho h

theorem is_must {α : Type} {o : Option α} (h : ∃ a, o = some a) : (must o).Is fun a => o = some a := by
  obtain ⟨a, rfl⟩ := h
  rfl

theorem is_may {α : Type} (o : Option α) : (may o).Is fun a => o = some a := by
  cases o with
  | none => trivial
  | some a => rfl

theorem fit_num' {x : Tab.Value N} (h : Fit sh .num x) : ∃ n, asNum x = some n := by
  cases x <;> first | exact ⟨_, rfl⟩ | cases h.1
theorem fit_str' {x : Tab.Value N} (h : Fit sh .str x) : ∃ n, asStr x = some n := by
  cases x <;> first | exact ⟨_, rfl⟩ | cases h.1
theorem fit_bool' {x : Tab.Value N} (h : Fit sh .bool x) : ∃ n, asBool x = some n := by
  cases x <;> first | exact ⟨_, rfl⟩ | cases h.1
theorem fit_tab' {x : Tab.Value N} (h : Fit sh .tab x) : ∃ n, asTab x = some n := by
  cases x <;> first | exact ⟨_, rfl⟩ | cases h.1
theorem fit_row' {x : Tab.Value N} (h : Fit sh .tabRow x) : ∃ n, asRow x = some n := by
  cases x <;> first | exact ⟨_, rfl⟩ | cases h.1
theorem fit_variant {x : Tab.Value N} {n : String} (h : Fit sh (.def_ n) x) : ∃ n, variantOf x = some n := by
  cases x <;> first | exact ⟨_, rfl⟩ | cases h.1

theorem nat_is {W : World N} {x : Tab.Value N} (h : Fit sh .num x) : (asNat W x).Is fun _ => True :=
  is_bind (is_must (fit_num' h)) fun n _ => by
    cases W.toNat n <;> trivial

theorem strs_some : ∀ {vs : List (Tab.Value N)}, (∀ v ∈ vs, Fit sh .str v) → ∃ ns, strs vs = some ns
  | [], _ => ⟨[], rfl⟩
  | v :: vs, h => by
    obtain ⟨s, h1⟩ := fit_str' (h v (.head _))
    obtain ⟨ns, h2⟩ := strs_some fun w hw => h w (List.mem_cons_of_mem _ hw)
    exact ⟨s :: ns, by rw [strs, h1, h2]; rfl⟩

theorem bools_some : ∀ {vs : List (Tab.Value N)}, (∀ v ∈ vs, Fit sh .bool v) → ∃ ns, bools vs = some ns
  | [], _ => ⟨[], rfl⟩
  | v :: vs, h => by
    obtain ⟨s, h1⟩ := fit_bool' (h v (.head _))
    obtain ⟨ns, h2⟩ := bools_some fun w hw => h w (List.mem_cons_of_mem _ hw)
    exact ⟨s :: ns, by rw [bools, h1, h2]; rfl⟩

theorem nums_some : ∀ {vs : List (Tab.Value N)}, (∀ v ∈ vs, Fit sh .num v) → ∃ ns, nums vs = some ns ∧ ns.length = vs.length
  | [], _ => ⟨[], rfl, rfl⟩
  | v :: vs, h => by
    obtain ⟨s, h1⟩ := fit_num' (h v (.head _))
    obtain ⟨ns, h2, h3⟩ := nums_some fun w hw => h w (List.mem_cons_of_mem _ hw)
    exact ⟨s :: ns, by rw [nums, h1, h2]; rfl, by rw [List.length_cons, List.length_cons, h3]⟩

/-- Values that are all of one type. -/
theorem all_fit {t : Tab.Ty} {n : Nat} {vs : List (Tab.Value N)} (h1 : vs.map Tab.Value.ty = List.replicate n t) (h2 : ∀ v ∈ vs, okV sh v = true) :
    ∀ v ∈ vs, Fit sh t v := fun v hv =>
  ⟨(List.mem_replicate.1 (by rw [← h1]; exact List.mem_map.2 ⟨v, hv, rfl⟩)).2, h2 v hv⟩

theorem plays_num {x : Tab.Value N} {next : N → Act (Tab.Value N)} (hx : Fit sh .num x) (h : ∀ n, Plays (Fit sh) u ios (next n)) :
    Plays (Fit sh) u ios (cast (asNum x) next) := plays_cast (fit_num' hx) fun n _ => h n
theorem plays_str {x : Tab.Value N} {next : String → Act (Tab.Value N)} (hx : Fit sh .str x) (h : ∀ n, Plays (Fit sh) u ios (next n)) :
    Plays (Fit sh) u ios (cast (asStr x) next) := plays_cast (fit_str' hx) fun n _ => h n
theorem plays_bool {x : Tab.Value N} {next : Bool → Act (Tab.Value N)} (hx : Fit sh .bool x) (h : ∀ n, Plays (Fit sh) u ios (next n)) :
    Plays (Fit sh) u ios (cast (asBool x) next) := plays_cast (fit_bool' hx) fun n _ => h n
theorem plays_nat {W : World N} {x : Tab.Value N} {next : Nat → Act (Tab.Value N)} (hx : Fit sh .num x) (h : ∀ n, Plays (Fit sh) u ios (next n)) :
    Plays (Fit sh) u ios (got (asNat W x) next) := plays_got (nat_is hx) fun n _ => h n
theorem plays_strs {vs : List (Tab.Value N)} {next : List String → Act (Tab.Value N)} (hx : ∀ v ∈ vs, Fit sh .str v) (h : ∀ n, Plays (Fit sh) u ios (next n)) :
    Plays (Fit sh) u ios (cast (strs vs) next) := plays_cast (strs_some hx) fun n _ => h n
theorem plays_bools {vs : List (Tab.Value N)} {next : List Bool → Act (Tab.Value N)} (hx : ∀ v ∈ vs, Fit sh .bool v) (h : ∀ n, Plays (Fit sh) u ios (next n)) :
    Plays (Fit sh) u ios (cast (bools vs) next) := plays_cast (bools_some hx) fun n _ => h n

theorem plays_res {α : Type} {o : Tab.Res α} {next : α → Act (Tab.Value N)} (h : ∀ a, o = .ok a → Plays (Fit sh) u ios (next a)) :
    Plays (Fit sh) u ios (res o next) := by
  cases o with
  | error e => trivial
  | ok a => exact h a rfl

theorem plays_ask {k : Nat} {x : Tab.Value N} {next : Tab.Value N → Act (Tab.Value N)} {i o : Tab.Ty} (hk : ios[k]? = some (i, o)) (hx : Fit sh i x)
    (h : ∀ v, Fit sh o v → Plays (Fit sh) u ios (next v)) : Plays (Fit sh) u ios (ask k x next) :=
  ⟨rfl, ⟨(i, o), hk, hx, h⟩, trivial⟩

theorem plays_askEach {k : Nat} {i o : Tab.Ty} (hk : ios[k]? = some (i, o)) : ∀ {xs : List (Tab.Value N)} {next : List (Tab.Value N) → Act (Tab.Value N)},
    (∀ x ∈ xs, Fit sh i x) → (∀ vs, vs.length = xs.length → (∀ v ∈ vs, Fit sh o v) → Plays (Fit sh) u ios (next vs)) →
    Plays (Fit sh) u ios (askEach k xs next)
  | [], next, _, h => h [] rfl fun _ h => by cases h
  | x :: xs, next, hx, h => plays_ask hk (hx x (.head _)) fun v hv => plays_askEach hk (fun y hy => hx y (List.mem_cons_of_mem _ hy)) fun vs hl hvs =>
      h (v :: vs) (by rw [List.length_cons, List.length_cons, hl]) fun w hw => by
        rcases List.mem_cons.1 hw with rfl | hw
        · exact hv
        · exact hvs w hw

theorem plays_askAll {x : Tab.Value N} {i : Tab.Ty} (hx : Fit sh i x) : ∀ (us : List Tab.Ty) {n k : Nat} {next : List (Tab.Value N) → Act (Tab.Value N)},
    us.length = n → (∀ j v, us[j]? = some v → ios[k + j]? = some (i, v)) →
    (∀ vs : List (Tab.Value N), vs.map Tab.Value.ty = us → (∀ v ∈ vs, okV sh v = true) → Plays (Fit sh) u ios (next vs)) →
    Plays (Fit sh) u ios (askAll x n k next)
  | [], _, k, next, rfl, _, h => h [] rfl fun _ h => by cases h
  | v :: us, _, k, next, rfl, hk, h => plays_ask (hk 0 v rfl) hx fun w hw =>
      plays_askAll hx us rfl (fun j y hj => by rw [show k + 1 + j = k + (j + 1) by omega]; exact hk (j + 1) y hj) fun vs h1 h2 =>
        h (w :: vs) (by rw [List.map_cons, h1, hw.1]) fun y hy => by
          rcases List.mem_cons.1 hy with rfl | hy
          · exact hw.2
          · exact h2 y hy

theorem fit_asTab {x : Tab.Value N} {t : Tab.Ty} {r : Tab.Rows N} (hx : Fit sh t x) (h : asTab x = some r) : Good sh r := by
  unfold asTab at h
  split at h
  · cases h
    have := hx.2
    rw [okV] at this
    exact okRs_iff.1 this
  · cases h

theorem fit_asRow {x : Tab.Value N} {t : Tab.Ty} {r : Tab.Rows N × Nat} (hx : Fit sh t x) (h : asRow x = some r) : Good sh r.1 := by
  unfold asRow at h
  split at h
  · cases h
    have := hx.2
    rw [okV] at this
    exact okRs_iff.1 this
  · cases h

theorem plays_tab {x : Tab.Value N} {next : Tab.Rows N → Act (Tab.Value N)} (hx : Fit sh .tab x)
    (h : ∀ r, Good sh r → Plays (Fit sh) u ios (next r)) : Plays (Fit sh) u ios (cast (asTab x) next) :=
  plays_cast (fit_tab' hx) fun r hr => h r (fit_asTab hx hr)

theorem plays_row {x : Tab.Value N} {next : Tab.Rows N × Nat → Act (Tab.Value N)} (hx : Fit sh .tabRow x)
    (h : ∀ r : Tab.Rows N × Nat, Good sh r.1 → Plays (Fit sh) u ios (next r)) : Plays (Fit sh) u ios (cast (asRow x) next) :=
  plays_cast (fit_row' hx) fun r hr => h r (fit_asRow hx hr)

theorem rowsOf_fit {t : Tab.Rows N} (h : Good sh t) : ∀ x ∈ rowsOf t, Fit sh .tabRow x := by
  intro x hx
  obtain ⟨i, _, rfl⟩ := List.mem_map.1 hx
  exact fit_row h i

theorem fit_entry {t : Tab.Ty} {v : Tab.Value N} (h : Fit sh t v) : okE sh v.entry = true := ok_entry h.2

theorem fit_cnv {e : Tab.Entry N} {t : Tab.Ty} {v : Tab.Value N} (he : okE sh e = true) (h : Tab.cnvValue e t = .ok v) : Fit sh t v := by
  unfold Tab.cnvValue at h
  split at h
  · rename_i hc
    cases h
    exact ⟨hc, ok_value he⟩
  · cases h

theorem fit_def {name : String} {x : Tab.Value N} (h : Fit sh (.def_ name) x) :
    ∃ k vs, x = .ogma name k vs ∧ (∀ v ∈ vs, okV sh v = true) ∧ (sh name).fields k = some (vs.map Tab.Value.ty) := by
  obtain ⟨h1, h2⟩ := h
  cases x <;> first | (cases h1; done) | skip
  rename_i t k vs
  cases h1
  rw [okV, Bool.and_eq_true] at h2
  exact ⟨k, vs, rfl, okVs_iff.1 h2.1, of_decide_eq_true h2.2⟩

theorem fit_ogma {name : String} {k : Nat} {vs : List (Tab.Value N)} (h : ∀ v ∈ vs, okV sh v = true) (hf : (sh name).fields k = some (vs.map Tab.Value.ty)) :
    Fit sh (.def_ name) (.ogma name k vs) := by
  refine ⟨rfl, ?_⟩
  rw [okV, Bool.and_eq_true]
  exact ⟨okVs_iff.2 h, decide_eq_true hf⟩

end

section
variable {sh : String → Shape} {t0 : Tab.Ty} {pre : List (Tab.Ty × Tab.Ty)}

theorem sound_fin {fs : List String} {u : Tab.Ty} {f : Tab.Value N → Act (Tab.Value N)} (h : ∀ x, Fit sh t0 x → Plays (Fit sh) u pre (f x)) :
    (fin fs u f).Sound (Fit sh) t0 pre := by
  unfold fin
  split
  · exact h
  · trivial

theorem sound_tab {k : Talk Tab.Ty (Tab.Value N)} (h : t0 = .tab → k.Sound (Fit sh) t0 pre) : (tabTalk t0 k).Sound (Fit sh) t0 pre := by
  unfold tabTalk
  split
  · rename_i hc; exact h hc
  · trivial

theorem sound_colNames {n : Nat} {k : Talk Tab.Ty (Tab.Value N)} (h : k.Sound (Fit sh) t0 (pre ++ List.replicate n (.nil, .str))) :
    (colNames n k).Sound (Fit sh) t0 pre := by
  unfold colNames
  split
  · trivial
  · exact sound_argsAs n h

end

end Verif.Lang
