import Verif.Props.Expand
/-! C61: the graph of an expression is the expression. -/
namespace Verif.Exp

/-- The nodes of the one graph are in the other, with the same below them. -/
def Same (g g' : Graph) : Prop := ∀ (n : Nat) x, g.nodes[n]? = some x → g'.nodes[n]? = some x ∧ below g' n = below g n

set_option linter.unusedSectionVars false

section
variable {g g' : Graph} {P : Nat → Prop} (hP : ∀ n, P n → ∀ k ∈ below g n, P k)
  (h : ∀ (n : Nat) x, P n → g.nodes[n]? = some x → g'.nodes[n]? = some x ∧ below g' n = below g n)
include hP h

mutual
theorem ShowsE.same' : ∀ (e : Expr) (n : Nat), P n → ShowsE g n e → ShowsE g' n e
  | .mk _ bs, n, p, ⟨h1, h2⟩ => by
    refine ⟨(h n _ p h1).1, ?_⟩
    rw [(h n _ p h1).2]
    exact ShowsBs.same' bs _ (hP n p) h2
theorem ShowsBs.same' : ∀ (bs : List Blk) (ms : List Nat), (∀ m ∈ ms, P m) → ShowsBs g ms bs → ShowsBs g' ms bs
  | [], _, _, h1 => h1
  | b :: bs, _, p, ⟨m, ms', h1, h2, h3⟩ => by
    subst h1
    exact ⟨m, ms', rfl, ShowsB.same' b m (p m List.mem_cons_self) h2,
      ShowsBs.same' bs ms' (fun x hx => p x (List.mem_cons_of_mem _ hx)) h3⟩
theorem ShowsB.same' : ∀ (b : Blk) (m : Nat), P m → ShowsB g m b → ShowsB g' m b
  | .mk op _ _ ts, m, p, ⟨⟨f, h1, h2⟩, h3⟩ => by
    refine ⟨⟨f, h1, (h m _ p h2).1⟩, ?_⟩
    rw [(h m _ p h2).2]
    exact ShowsTs.same' ts _ (hP m p) h3
theorem ShowsTs.same' : ∀ (ts : List Term) (ks : List Nat), (∀ k ∈ ks, P k) → ShowsTs g ks ts → ShowsTs g' ks ts
  | [], _, _, h1 => h1
  | t :: ts, _, p, ⟨k, ks', h1, h2, h3⟩ => by
    subst h1
    exact ⟨k, ks', rfl, ShowsT.same' t k (p k List.mem_cons_self) h2,
      ShowsTs.same' ts ks' (fun x hx => p x (List.mem_cons_of_mem _ hx)) h3⟩
theorem ShowsT.same' : ∀ (t : Term) (k : Nat), P k → ShowsT g k t → ShowsT g' k t
  | .flag _, k, p, h1 => (h k _ p h1).1
  | .plain _, k, p, h1 => (h k _ p h1).1
  | .pound _, k, p, h1 => (h k _ p h1).1
  | .expr e, k, p, h1 => ShowsE.same' e k p h1
end
end

theorem ShowsE.same {g g' : Graph} (h : Same g g') {e : Expr} {n : Nat} (hs : ShowsE g n e) : ShowsE g' n e :=
  ShowsE.same' (P := fun _ => True) (fun _ _ _ _ => trivial) (fun n x _ hx => h n x hx) e n trivial hs

theorem Same.trans {a b c : Graph} (h : Same a b) (k : Same b c) : Same a c := by
  intro n x hx
  obtain ⟨h1, h2⟩ := h n x hx
  obtain ⟨h3, h4⟩ := k n x h1
  exact ⟨h3, by rw [h4, h2]⟩

/-! While expressions are queued. -/

def PT (g : Graph) (q : Queue) (k : Nat) : Term → Prop
  | .flag f => g.nodes[k]? = some (.flag f)
  | .plain x => g.nodes[k]? = some (.arg x)
  | .pound c => g.nodes[k]? = some (.pound c)
  | .expr e => (k, e) ∈ q

def PTs (g : Graph) (q : Queue) : List Nat → List Term → Prop
  | ks, [] => ks = []
  | ks, t :: ts => ∃ k ks', ks = k :: ks' ∧ PT g q k t ∧ PTs g q ks' ts

def PB (g : Graph) (q : Queue) (m : Nat) : Blk → Prop
  | .mk op _ _ ts => (∃ f, op = some f ∧ g.nodes[m]? = some (.op f)) ∧ PTs g q (below g m) ts

def PBs (g : Graph) (q : Queue) : List Nat → List Blk → Prop
  | ms, [] => ms = []
  | ms, b :: bs => ∃ m ms', ms = m :: ms' ∧ PB g q m b ∧ PBs g q ms' bs

def Keeps (g g' : Graph) : Prop := ∀ (n : Nat) x, g.nodes[n]? = some x → g'.nodes[n]? = some x

theorem PT.mono {g g' : Graph} {q q' : Queue} (h : Keeps g g') (hq : ∀ x ∈ q, x ∈ q') {k : Nat} : ∀ {t : Term}, PT g q k t → PT g' q' k t
  | .flag _, h1 => h k _ h1
  | .plain _, h1 => h k _ h1
  | .pound _, h1 => h k _ h1
  | .expr _, h1 => hq _ h1

theorem PTs.mono {g g' : Graph} {q q' : Queue} (h : Keeps g g') (hq : ∀ x ∈ q, x ∈ q') : ∀ {ts : List Term} {ks : List Nat},
    PTs g q ks ts → PTs g' q' ks ts
  | [], _, h1 => h1
  | _ :: _, _, ⟨k, ks', h1, h2, h3⟩ => ⟨k, ks', h1, PT.mono h hq h2, PTs.mono h hq h3⟩

theorem below_link (g : Graph) (a b n : Nat) : below (g.link a b .normal) n = if a = n then below g n ++ [b] else below g n := by
  unfold below Graph.link
  dsimp only
  rw [List.filter_append, List.map_append]
  by_cases h : a = n
  · simp [h]
  · simp [h]

theorem below_add (g : Graph) (x : Node) (n : Nat) : below (g.add x) n = below g n := rfl

theorem keeps_step (g : Graph) (x : Node) (a b : Nat) (r : Rel) : Keeps g ((g.add x).link a b r) := by
  intro n y h
  show (g.nodes ++ [x])[n]? = _
  rw [List.getElem?_append_left (List.getElem?_eq_some_iff.1 h).1]
  exact h

theorem new_step (g : Graph) (x : Node) (a b : Nat) (r : Rel) : ((g.add x).link a b r).nodes[g.nodes.length]? = some x := by
  show (g.nodes ++ [x])[g.nodes.length]? = _
  simp

theorem len_step (g : Graph) (x : Node) (a b : Nat) (r : Rel) : ((g.add x).link a b r).nodes.length = g.nodes.length + 1 := by
  simp [Graph.add, Graph.link]

/-- Edges start at nodes. -/
def Src (g : Graph) : Prop := ∀ e ∈ g.edges, e.src < g.nodes.length

theorem Src.step {g : Graph} (h : Src g) {a : Nat} (ha : a < g.nodes.length) (x : Node) (b : Nat) (r : Rel) :
    Src ((g.add x).link a b r) := by
  intro e he
  rw [len_step]
  rcases List.mem_append.1 he with he | he
  · have := h e he; omega
  · rw [List.mem_singleton.1 he]; show a < _; omega

theorem Src.none {g : Graph} (h : Src g) {n : Nat} (hn : g.nodes.length ≤ n) : below g n = [] := by
  unfold below
  rw [List.map_eq_nil_iff, List.filter_eq_nil_iff]
  intro e he
  have := h e he
  simp only [decide_eq_true_eq]
  omega

/-- The expressions that have been queued: new nodes with nothing below them yet. -/
structure Queued (g g' : Graph) (q q' : Queue) (new : Queue) : Prop where
  eq : q' = q ++ new
  node : ∀ x ∈ new, g.nodes.length ≤ x.1 ∧ g'.nodes[x.1]? = some .expr ∧ below g' x.1 = []
  nodup : (new.map (·.1)).Nodup

theorem addTerms_shows (D : Defs) (op : Nat) : ∀ (ts : List Term) (g : Graph) (q : Queue) {g' : Graph} {q' : Queue},
    addTerms D op ts g q = .ok (g', q') → op < g.nodes.length → Src g →
    ∃ ks new, Queued g g' q q' new ∧ Keeps g g' ∧ Src g' ∧ g.nodes.length ≤ g'.nodes.length ∧ below g' op = below g op ++ ks ∧
      (∀ n, n ≠ op → below g' n = below g n) ∧ PTs g' q' ks ts := by
  intro ts
  induction ts with
  | nil =>
    intro g q g' q' h hop hs
    cases h
    exact ⟨[], [], ⟨by simp, by simp, by simp⟩, fun _ _ h => h, hs, Nat.le_refl _, by simp, fun _ _ => rfl, rfl⟩
  | cons t ts ih =>
    intro g q g' q' h hop hs
    have one : ∀ (x : Node) (more : Queue), (∀ y ∈ more, y.1 = g.nodes.length ∧ x = .expr) → (more.map (·.1)).Nodup →
        PT ((g.add x).link op g.nodes.length .normal) (q ++ more) g.nodes.length t →
        addTerms D op ts ((g.add x).link op g.nodes.length .normal) (q ++ more) = .ok (g', q') →
        ∃ ks new, Queued g g' q q' new ∧ Keeps g g' ∧ Src g' ∧ g.nodes.length ≤ g'.nodes.length ∧ below g' op = below g op ++ ks ∧
          (∀ n, n ≠ op → below g' n = below g n) ∧ PTs g' q' ks (t :: ts) := by
      intro x more hm hnd ht h
      obtain ⟨ks, new, hq, hk, hs', hl, hb, ho, hp⟩ := ih _ _ h (by rw [len_step]; omega) (hs.step hop _ _ _)
      rw [len_step] at hl
      have ho' : ∀ n, n ≠ op → below g' n = below g n := by
        intro n hn
        rw [ho n hn, below_link, if_neg (fun h => hn h.symm), below_add]
      refine ⟨g.nodes.length :: ks, more ++ new, ⟨?_, ?_, ?_⟩, ?_, hs', by omega, ?_, ho', ?_⟩
      · rw [hq.eq, List.append_assoc]
      · intro y hy
        rcases List.mem_append.1 hy with hy | hy
        · obtain ⟨h1, rfl⟩ := hm y hy
          rw [h1]
          refine ⟨Nat.le_refl _, hk _ _ (new_step _ _ _ _ _), ?_⟩
          rw [ho' _ (by omega)]
          exact hs.none (Nat.le_refl _)
        · obtain ⟨h1, h2⟩ := hq.node y hy
          rw [len_step] at h1
          exact ⟨by omega, h2⟩
      · rw [List.map_append]
        refine List.nodup_append.2 ⟨hnd, hq.nodup, ?_⟩
        intro a ha b hb' hab
        subst hab
        obtain ⟨y, hy, rfl⟩ := List.mem_map.1 ha
        obtain ⟨z, hz, hyz⟩ := List.mem_map.1 hb'
        have h1 := (hm y hy).1
        have h2 := (hq.node z hz).1
        rw [len_step] at h2
        omega
      · intro n y hy; exact hk n y (keeps_step _ _ _ _ _ n y hy)
      · rw [hb, below_link, if_pos rfl, below_add, List.append_assoc]; rfl
      · exact ⟨_, ks, rfl, PT.mono hk (by rw [hq.eq]; intro z hz; exact List.mem_append_left _ hz) ht, hp⟩
    cases t with
    | flag f => exact one _ [] (by simp) (by simp) (new_step _ _ _ _ _) (by rw [List.append_nil]; exact h)
    | plain x => exact one _ [] (by simp) (by simp) (new_step _ _ _ _ _) (by rw [List.append_nil]; exact h)
    | pound c =>
      simp only [addTerms] at h
      split at h
      · exact one _ [] (by simp) (by simp) (new_step _ _ _ _ _) (by rw [List.append_nil]; exact h)
      · cases h
    | expr e =>
      simp only [addTerms] at h
      split at h
      · exact one _ [(g.nodes.length, e)] (by simp) (by simp) (List.mem_append_right _ List.mem_cons_self) h
      · cases h

theorem PB.mono {g g' : Graph} {q q' : Queue} (h : Keeps g g') (hq : ∀ x ∈ q, x ∈ q') {m : Nat} (hb : below g' m = below g m) :
    ∀ {b : Blk}, PB g q m b → PB g' q' m b
  | .mk _ _ _ _, ⟨⟨f, h1, h2⟩, h3⟩ => ⟨⟨f, h1, h m _ h2⟩, by rw [hb]; exact h3.mono h hq⟩

theorem addBlks_shows (D : Defs) (root : Nat) : ∀ (bs : List Blk) (g : Graph) (q : Queue) {g' : Graph} {q' : Queue},
    addBlks D root bs g q = .ok (g', q') → root < g.nodes.length → Src g →
    ∃ ms new, Queued g g' q q' new ∧ Keeps g g' ∧ Src g' ∧ g.nodes.length ≤ g'.nodes.length ∧ below g' root = below g root ++ ms ∧
      (∀ n, n < g.nodes.length → n ≠ root → below g' n = below g n) ∧ PBs g' q' ms bs := by
  intro bs
  induction bs with
  | nil =>
    intro g q g' q' h hr hs
    cases h
    exact ⟨[], [], ⟨by simp, by simp, by simp⟩, fun _ _ h => h, hs, Nat.le_refl _, by simp, fun _ _ _ => rfl, rfl⟩
  | cons blk bs ih =>
    intro g q g' q' h hr hs
    obtain ⟨op, inTy, outTy, terms⟩ := blk
    simp only [addBlks] at h
    split at h
    · cases h
    · rename_i op
      split at h
      · cases h
      · split at h
        · cases h
        · split at h
          · cases h
          · rename_i g1 q1 ht
            have hl0 := len_step g (.op op) root g.nodes.length .normal
            obtain ⟨ks, new1, hq1, hk1, hs1, hl1, hb1, ho1, hp1⟩ :=
              addTerms_shows D g.nodes.length terms _ q ht (by omega) (hs.step hr _ _ _)
            obtain ⟨ms, new2, hq2, hk2, hs2, hl2, hb2, ho2, hp2⟩ := ih g1 q1 h (by omega) hs1
            have hop1 : g1.nodes[g.nodes.length]? = some (.op op) := hk1 _ _ (new_step _ _ _ _ _)
            have hb1' : below g1 g.nodes.length = ks := by
              rw [hb1, below_link, if_neg (by omega), below_add, hs.none (Nat.le_refl _)]; rfl
            have hbm : below g' g.nodes.length = below g1 g.nodes.length := ho2 _ (by omega) (by omega)
            refine ⟨g.nodes.length :: ms, new1 ++ new2, ⟨?_, ?_, ?_⟩, ?_, hs2, by omega, ?_, ?_, ?_⟩
            · rw [hq2.eq, hq1.eq, List.append_assoc]
            · intro y hy
              rcases List.mem_append.1 hy with hy | hy
              · obtain ⟨h1, h2, h3⟩ := hq1.node y hy
                refine ⟨by omega, hk2 _ _ h2, ?_⟩
                rw [ho2 _ (List.getElem?_eq_some_iff.1 h2).1 (by omega)]
                exact h3
              · obtain ⟨h1, h2⟩ := hq2.node y hy
                exact ⟨by omega, h2⟩
            · rw [List.map_append]
              refine List.nodup_append.2 ⟨hq1.nodup, hq2.nodup, ?_⟩
              intro a ha b hb' hab
              subst hab
              obtain ⟨y, hy, rfl⟩ := List.mem_map.1 ha
              obtain ⟨z, hz, hyz⟩ := List.mem_map.1 hb'
              have h1 := (List.getElem?_eq_some_iff.1 (hq1.node y hy).2.1).1
              have h2 := (hq2.node z hz).1
              omega
            · intro n y hy; exact hk2 n y (hk1 n y (keeps_step _ _ _ _ _ n y hy))
            · rw [hb2, ho1 _ (by omega), below_link, if_pos rfl, below_add, List.append_assoc]; rfl
            · intro n hn hne
              rw [ho2 n (by omega) hne, ho1 n (by omega), below_link, if_neg (fun h => hne h.symm), below_add]
            · refine ⟨_, ms, rfl, PB.mono hk2 (by rw [hq2.eq]; intro z hz; exact List.mem_append_left _ hz) hbm ?_, hp2⟩
              exact ⟨⟨op, rfl, hop1⟩, by rw [hb1']; exact hp1⟩

theorem PTs.shows {g g' : Graph} {q : Queue} (h : Keeps g g') (hq : ∀ x ∈ q, ShowsE g' x.1 x.2) : ∀ {ts : List Term} {ks : List Nat},
    PTs g q ks ts → ShowsTs g' ks ts
  | [], _, h1 => h1
  | t :: _, _, ⟨k, ks', h1, h2, h3⟩ => by
    refine ⟨k, ks', h1, ?_, PTs.shows h hq h3⟩
    cases t with
    | flag f => exact h k _ h2
    | plain f => exact h k _ h2
    | pound f => exact h k _ h2
    | expr e => exact hq _ h2

theorem PBs.shows {g g' : Graph} {q : Queue} (h : Keeps g g') (hq : ∀ x ∈ q, ShowsE g' x.1 x.2)
    (hb : ∀ m f, g.nodes[m]? = some (.op f) → below g' m = below g m) : ∀ {bs : List Blk} {ms : List Nat},
    PBs g q ms bs → ShowsBs g' ms bs
  | [], _, h1 => h1
  | .mk _ _ _ _ :: _, _, ⟨m, ms', h1, ⟨⟨f, h2, h3⟩, h4⟩, h5⟩ => by
    refine ⟨m, ms', h1, ⟨⟨f, h2, h m _ h3⟩, ?_⟩, PBs.shows h hq hb h5⟩
    rw [hb m f h3]
    exact h4.shows h hq

theorem flatLoop_shows (D : Defs) : ∀ (fuel : Nat) (q : Queue) (g : Graph) {g' : Graph},
    flatLoop D fuel q g = .ok g' → Src g → (q.map (·.1)).Nodup → (∀ x ∈ q, g.nodes[x.1]? = some .expr ∧ below g x.1 = []) →
    (∀ x ∈ q, ShowsE g' x.1 x.2) ∧ Keeps g g' ∧ (∀ n, n < g.nodes.length → n ∉ q.map (·.1) → below g' n = below g n) := by
  intro fuel
  induction fuel with
  | zero =>
    intro q g g' h hs hn hq
    cases q with
    | nil => simp only [flatLoop] at h; cases h; exact ⟨by simp, fun _ _ h => h, fun _ _ _ => rfl⟩
    | cons x q => simp [flatLoop] at h
  | succ fuel ih =>
    intro q g g' h hs hn hq
    cases q with
    | nil => simp only [flatLoop] at h; cases h; exact ⟨by simp, fun _ _ h => h, fun _ _ _ => rfl⟩
    | cons x q =>
      obtain ⟨root, e⟩ := x
      simp only [flatLoop] at h
      split at h
      · cases h
      · rename_i g1 q1 hb
        obtain ⟨hr1, hr2⟩ := hq (root, e) List.mem_cons_self
        dsimp only at hr1 hr2
        have hrl := (List.getElem?_eq_some_iff.1 hr1).1
        rw [List.map_cons, List.nodup_cons] at hn
        obtain ⟨ms, new, hqd, hk, hs1, hl, hb1, ho, hp⟩ := addBlks_shows D root e.blks g q hb hrl hs
        have hlt : ∀ x ∈ q, x.1 < g.nodes.length := fun x hx =>
          (List.getElem?_eq_some_iff.1 (hq x (List.mem_cons_of_mem _ hx)).1).1
        have hr : root ∉ q1.map (·.1) := by
          rw [hqd.eq, List.map_append, List.mem_append]
          rintro (h1 | h1)
          · exact hn.1 h1
          · obtain ⟨y, hy, h2⟩ := List.mem_map.1 h1
            have := (hqd.node y hy).1
            omega
        have hn1 : (q1.map (·.1)).Nodup := by
          rw [hqd.eq, List.map_append]
          refine List.nodup_append.2 ⟨hn.2, hqd.nodup, ?_⟩
          intro a ha b hb' hab
          subst hab
          obtain ⟨y, hy, rfl⟩ := List.mem_map.1 ha
          obtain ⟨z, hz, hyz⟩ := List.mem_map.1 hb'
          have h1 := hlt y hy
          have h2 := (hqd.node z hz).1
          omega
        have hq1 : ∀ x ∈ q1, g1.nodes[x.1]? = some .expr ∧ below g1 x.1 = [] := by
          intro x hx
          rw [hqd.eq] at hx
          rcases List.mem_append.1 hx with hx | hx
          · obtain ⟨h1, h2⟩ := hq x (List.mem_cons_of_mem _ hx)
            refine ⟨hk _ _ h1, ?_⟩
            rw [ho _ (hlt x hx) (fun h => hn.1 (List.mem_map.2 ⟨x, hx, h⟩))]
            exact h2
          · exact (hqd.node x hx).2
        obtain ⟨r1, r2, r3⟩ := ih q1 g1 h hs1 hn1 hq1
        refine ⟨?_, fun n x hx => r2 n x (hk n x hx), ?_⟩
        · intro x hx
          rcases List.mem_cons.1 hx with rfl | hx
          · obtain ⟨o, bs⟩ := e
            refine ⟨r2 _ _ (hk _ _ hr1), ?_⟩
            dsimp only
            rw [r3 root (by omega) hr, hb1, hr2, List.nil_append]
            refine PBs.shows r2 r1 ?_ hp
            intro m f hm
            refine r3 m (List.getElem?_eq_some_iff.1 hm).1 ?_
            intro h1
            obtain ⟨y, hy, rfl⟩ := List.mem_map.1 h1
            rw [(hq1 y hy).1] at hm
            cases hm
          · exact r1 x (by rw [hqd.eq]; exact List.mem_append_left _ hx)
        · intro n hn' hnq
          simp only [List.map_cons, List.mem_cons, not_or] at hnq
          rw [r3 n (by omega) ?_, ho n hn' hnq.1]
          rw [hqd.eq, List.map_append, List.mem_append]
          rintro (h1 | h1)
          · exact hnq.2 h1
          · obtain ⟨y, hy, h2⟩ := List.mem_map.1 h1
            have := (hqd.node y hy).1
            omega

/-- Flattening adds exactly the expression, and changes nothing else. -/
theorem flatten_shows {D : Defs} {e : Expr} {g g' : Graph} (h : flatten D e g = .ok g') (hs : Src g) :
    ShowsE g' g.nodes.length e ∧ Same g g' := by
  unfold flatten at h
  split at h
  · cases h
  · have hs1 : Src (g.add .expr) := by
      intro x hx
      have := hs x hx
      simp [Graph.add]; omega
    obtain ⟨h1, h2, h3⟩ := flatLoop_shows D _ _ _ h hs1 (by simp) (by
      intro x hx
      rw [List.mem_singleton.1 hx]
      exact ⟨by simp [Graph.add], by rw [below_add]; exact hs.none (Nat.le_refl _)⟩)
    refine ⟨h1 _ List.mem_cons_self, ?_⟩
    intro n x hx
    have hn := (List.getElem?_eq_some_iff.1 hx).1
    have : (g.add .expr).nodes[n]? = some x := by
      show (g.nodes ++ [_])[n]? = _
      rw [List.getElem?_append_left hn]; exact hx
    refine ⟨h2 n x this, ?_⟩
    rw [h3 n (by simp [Graph.add]; omega) (by simp; omega), below_add]

end Verif.Exp
