import Verif.Lemmas.Nom
import Verif.Lemmas.Defs
import Verif.Spec.Tuple
namespace Verif.Tuple
open Verif.Nom Verif.Defs

/-- The members after the first, each with the separator before it. -/
def tailNames : List TTy → List Char
  | [] => []
  | t :: ts => '-' :: tyname t ++ tailNames ts

theorem members_cons (t : TTy) (ts : List TTy) : members (t :: ts) = tyname t ++ tailNames ts ++ ['-'] := by
  induction ts generalizing t with
  | nil => simp [members, tailNames]
  | cons u ts ih =>
    rw [members, ih]
    simp [tailNames]

theorem tyname_tuple (t : TTy) (ts : List TTy) :
    tyname (.tuple (t :: ts)) = ['U', '_'] ++ (tyname t ++ tailNames ts) ++ ['_'] := by
  rw [tyname, members_cons]
  rw [← List.append_assoc, List.dropLast_concat]

mutual
def toSplit : TTy → Split
  | .base t => .ty (baseName t)
  | .tuple ts => .tuple (toSplits ts)
def toSplits : List TTy → List Split
  | [] => []
  | t :: ts => toSplit t :: toSplits ts
end

/-- What may follow a member: nothing, or a separator. -/
def Stop (r : List Char) : Prop := r = [] ∨ (∃ q, r = '-' :: q) ∨ ∃ q, r = '_' :: q

theorem takeWhile_stop {n r : List Char} {p : Char → Bool} (hn : ∀ c ∈ n, p c = true)
    (hr : r = [] ∨ ∃ c q, r = c :: q ∧ p c = false) :
    (n ++ r).takeWhile p = n ∧ (n ++ r).dropWhile p = r := by
  induction n with
  | nil =>
    rcases hr with rfl | ⟨c, q, rfl, hc⟩
    · simp
    · simp [hc]
  | cons c n ih =>
    have := ih (fun d hd => hn d (by simp [hd]))
    simp [hn c (by simp), this]

theorem parse_leaf {n r : List Char} (h0 : n ≠ []) (hU : n ≠ ['U']) (h1 : '-' ∉ n) (h2 : '_' ∉ n)
    (hr : Stop r) (k : Nat) : parseSplit (k + 1) (n ++ r) = .ok r (.ty n) := by
  have hpre : ['U', '_'].isPrefixOf (n ++ r) = false := by
    cases n with
    | nil => exact absurd rfl h0
    | cons c n =>
      cases n with
      | nil =>
        have : c ≠ 'U' := fun e => hU (by rw [e])
        simp [List.isPrefixOf]
        intro e; exact absurd e.symm this
      | cons d n =>
        have : d ≠ '_' := by
          rintro rfl; exact h2 (by simp)
        simp [List.isPrefixOf]
        intro _ e; exact absurd e.symm this
  have hp : ∀ c ∈ n, (!(c == '-' || c == '_')) = true := by
    intro c hc
    have a : c ≠ '-' := by rintro rfl; exact h1 hc
    have b : c ≠ '_' := by rintro rfl; exact h2 hc
    simp [a, b]
  have hr' : r = [] ∨ ∃ c q, r = c :: q ∧ (!(c == '-' || c == '_')) = false := by
    rcases hr with h | ⟨q, rfl⟩ | ⟨q, rfl⟩
    · exact Or.inl h
    · exact Or.inr ⟨_, q, rfl, by simp⟩
    · exact Or.inr ⟨_, q, rfl, by simp⟩
  obtain ⟨e1, e2⟩ := takeWhile_stop hp hr'
  have hne : n.isEmpty = false := by cases n <;> simp at h0 ⊢
  simp only [parseSplit, hpre, takeTill1, takeWhile1, e1, e2, hne]
  rfl

theorem leaf_clean {t : Ty} (h : Clean (.base t)) :
    baseName t ≠ [] ∧ baseName t ≠ ['U'] ∧ '-' ∉ baseName t ∧ '_' ∉ baseName t := by
  cases t with
  | def_ n =>
    simp only [Clean, CleanName] at h
    obtain ⟨h0, h1, h2, h3, _⟩ := h
    refine ⟨?_, ?_, h2, h3⟩
    · intro e; exact h0 (String.toList_inj.1 (by rw [show n.toList = [] from e]; rfl))
    · intro e; exact h1 (String.toList_inj.1 (by rw [show n.toList = ['U'] from e]; rfl))
  | _ => decide

mutual
theorem parse_name_back (t : TTy) (h : Clean t) (k : Nat) (hk : (tyname t).length < k) (r : List Char)
    (hr : Stop r) : parseSplit k (tyname t ++ r) = .ok r (toSplit t) := by
  match t, k with
  | .base t, k + 1 =>
    obtain ⟨a, b, c, d⟩ := leaf_clean h
    exact parse_leaf a b c d hr k
  | .tuple [], _ => exact absurd rfl h.1
  | .tuple (t :: ts), k + 1 =>
    simp only [Clean, CleanAll] at h
    have hlen : (tyname t).length + (tailNames ts).length + 3 < k + 1 := by
      rw [tyname_tuple] at hk; simp at hk ⊢; omega
    rw [tyname_tuple]
    have e : (['U', '_'] ++ (tyname t ++ tailNames ts) ++ ['_'] ++ r) =
        'U' :: '_' :: (tyname t ++ (tailNames ts ++ '_' :: r)) := by simp
    rw [e]
    have hpre : ['U', '_'].isPrefixOf ('U' :: '_' :: (tyname t ++ (tailNames ts ++ '_' :: r))) = true := by
      simp [List.isPrefixOf]
    have htag : tag ['U', '_'] ('U' :: '_' :: (tyname t ++ (tailNames ts ++ '_' :: r))) =
        .ok (tyname t ++ (tailNames ts ++ '_' :: r)) () := tag_ok.2 rfl
    simp only [parseSplit, if_pos hpre]
    rw [htag]
    have hstop : Stop (tailNames ts ++ '_' :: r) := by
      cases ts with
      | nil => exact Or.inr (Or.inr ⟨r, rfl⟩)
      | cons u us => exact Or.inr (Or.inl ⟨tyname u ++ tailNames us ++ '_' :: r, by simp [tailNames]⟩)
    have h1 := parse_name_back t h.2.1 k (by omega) _ hstop
    have h2 := parse_names_back ts h.2.2 k (by omega) r (tailNames ts ++ '_' :: r).length
      (by simp) [toSplit t]
    simp only [PR.bind, sepList1, h1, h2, toSplit, toSplits]
    simp [chr]
theorem parse_names_back (ts : List TTy) (h : CleanAll ts) (k : Nat) (hk : (tailNames ts).length < k)
    (r : List Char) (m : Nat) (hm : (tailNames ts).length ≤ m) (acc : List Split) :
    sepLoop (chr '-') (parseSplit k) m (tailNames ts ++ '_' :: r) acc = .ok ('_' :: r) (acc ++ toSplits ts) := by
  match ts with
  | [] =>
    have e : tailNames [] ++ '_' :: r = '_' :: r := rfl
    rw [e]
    cases m with
    | zero => simp [sepLoop, toSplits]
    | succ m => simp [sepLoop, chr, toSplits]
  | t :: ts =>
    simp only [CleanAll] at h
    simp only [tailNames, List.cons_append, List.length_cons, List.length_append] at hk hm
    obtain ⟨m, rfl⟩ : ∃ m', m = m' + 1 := ⟨m - 1, by omega⟩
    have e : tailNames (t :: ts) ++ '_' :: r = '-' :: (tyname t ++ (tailNames ts ++ '_' :: r)) := by
      simp [tailNames]
    rw [e]
    have hstop : Stop (tailNames ts ++ '_' :: r) := by
      cases ts with
      | nil => exact Or.inr (Or.inr ⟨r, rfl⟩)
      | cons u us => exact Or.inr (Or.inl ⟨tyname u ++ tailNames us ++ '_' :: r, by simp [tailNames]⟩)
    have h1 := parse_name_back t h.1 k (by omega) _ hstop
    have h2 := parse_names_back ts h.2 k (by omega) r m (by omega) (acc ++ [toSplit t])
    have hc : chr '-' ('-' :: (tyname t ++ (tailNames ts ++ '_' :: r))) =
      .ok (tyname t ++ (tailNames ts ++ '_' :: r)) () := by simp [chr]
    simp only [sepLoop, hc, h1, h2]
    simp [toSplits]
end

theorem parseTop_back (ts : List TTy) (h : Clean (.tuple ts)) :
    parseTop (tyname (.tuple ts)) = some (.tuple (toSplits ts)) := by
  have h1 := parse_name_back (.tuple ts) h ((tyname (.tuple ts)).length + 1) (by omega) [] (Or.inl rfl)
  rw [List.append_nil] at h1
  cases ts with
  | nil => exact absurd rfl h.1
  | cons t ts =>
    have hpre : ['U', '_'].isPrefixOf (tyname (.tuple (t :: ts))) = true := by
      rw [tyname_tuple]; simp [List.isPrefixOf]
    rw [parseTop, if_pos hpre, h1]
    simp [toSplit]

theorem baseName_inj {t u : Ty} (ht : Clean (.base t)) (hu : Clean (.base u)) (h : baseName t = baseName u) :
    t = u := by
  have key : ∀ n : String, CleanName n → ∀ p : Ty, (∀ m, p ≠ .def_ m) → n.toList ≠ baseName p := by
    intro n hn p hp e
    apply hn.2.2.2.2
    cases p with
    | def_ m => exact absurd rfl (hp m)
    | nil => rw [String.toList_inj.1 (e.trans (by rfl : _ = "Nil".toList))]; simp
    | bool => rw [String.toList_inj.1 (e.trans (by rfl : _ = "Bool".toList))]; simp
    | num => rw [String.toList_inj.1 (e.trans (by rfl : _ = "Num".toList))]; simp
    | str => rw [String.toList_inj.1 (e.trans (by rfl : _ = "Str".toList))]; simp
    | tab => rw [String.toList_inj.1 (e.trans (by rfl : _ = "Table".toList))]; simp
    | tabRow => rw [String.toList_inj.1 (e.trans (by rfl : _ = "TableRow".toList))]; simp
  cases t with
  | def_ n =>
    cases u with
    | def_ m => rw [String.toList_inj.1 h]
    | _ => exact absurd h (key n ht _ (by simp))
  | _ =>
    cases u with
    | def_ m => exact absurd h.symm (key m hu _ (by simp))
    | _ => first | rfl | exact absurd h (by decide)

mutual
theorem toSplit_inj (t u : TTy) (ht : Clean t) (hu : Clean u) (h : toSplit t = toSplit u) : t = u := by
  match t, u with
  | .base a, .base b =>
    simp only [toSplit, Split.ty.injEq] at h
    rw [baseName_inj ht hu h]
  | .tuple ts, .tuple us =>
    simp only [toSplit, Split.tuple.injEq] at h
    rw [toSplits_inj ts us ht.2 hu.2 h]
  | .base a, .tuple us => simp [toSplit] at h
  | .tuple ts, .base b => simp [toSplit] at h
theorem toSplits_inj (ts us : List TTy) (ht : CleanAll ts) (hu : CleanAll us) (h : toSplits ts = toSplits us) :
    ts = us := by
  match ts, us with
  | [], [] => rfl
  | [], _ :: _ => simp [toSplits] at h
  | _ :: _, [] => simp [toSplits] at h
  | t :: ts, u :: us =>
    simp only [toSplits, List.cons.injEq] at h
    simp only [CleanAll] at ht hu
    rw [toSplit_inj t u ht.1 hu.1 h.1, toSplits_inj ts us ht.2 hu.2 h.2]
end

mutual
theorem convert_back (tys : AMap String TyEntry) (t : TTy)
    (h : ∀ u ∈ leaves t, tyOf tys (String.ofList (baseName u)) = some u) : convert tys (toSplit t) = some t := by
  match t with
  | .base u => simp only [toSplit, convert]; rw [h u (by simp [leaves])]; rfl
  | .tuple ts =>
    simp only [toSplit, convert]
    rw [convertAll_back tys ts (fun u hu => h u (by simpa [leaves] using hu))]; rfl
theorem convertAll_back (tys : AMap String TyEntry) (ts : List TTy)
    (h : ∀ u ∈ leavesAll ts, tyOf tys (String.ofList (baseName u)) = some u) :
    convertAll tys (toSplits ts) = some ts := by
  match ts with
  | [] => rfl
  | t :: ts =>
    simp only [toSplits, convertAll]
    rw [convert_back tys t (fun u hu => h u (by simp [leavesAll, hu])),
      convertAll_back tys ts (fun u hu => h u (by simp [leavesAll, hu]))]
    rfl
end

/-- In a reachable store a known type is found by its name. -/
theorem known_by_name {P : Req → Prop} {C : Bool → Prop} {checked : Bool} {d : Defs}
    (hr : Reach P C checked base d) {t : Ty} (h : d.Known t) :
    tyOf d.types (String.ofList (baseName t)) = some t := by
  obtain ⟨n, e, hg, he⟩ := h
  cases e with
  | def_ td =>
    have := (reach_wf base_wf hr).names n td hg
    subst this
    have e : t = .def_ td.name := he.symm
    subst e
    have : String.ofList (baseName (.def_ td.name)) = td.name := by simp [baseName]
    rw [this, tyOf, hg]; rfl
  | prim p =>
    have e : p = t := he
    subst e
    have hb := (ogma_entries hr).2 n _ hg (fun td e => by cases e)
    have hx := AMap.mem_of_get hb
    simp only [base, baseTypes, List.mem_cons, List.not_mem_nil, or_false, Prod.mk.injEq, reduceCtorEq,
      and_false, TyEntry.prim.injEq] at hx
    have : n = String.ofList (baseName p) := by
      rcases hx with ⟨rfl, rfl⟩ | ⟨rfl, rfl⟩ | ⟨rfl, rfl⟩ | ⟨rfl, rfl⟩ | ⟨rfl, rfl⟩ | ⟨rfl, rfl⟩ <;> decide
    rw [← this, tyOf, hg]; rfl

end Verif.Tuple
