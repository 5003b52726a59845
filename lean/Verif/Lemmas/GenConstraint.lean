import Verif.SpecGenerate
/-!
# Lemmas on names and constraints of generated classes
-/
namespace Verif

open Spec

/-! ## names -/

theorem mangle_eq (s : String) : mangle s = pyName s := by
  apply String.toList_inj.1
  simp [mangle, pyName, String.toList_map]

theorem pyName_toList (s : String) : (pyName s).toList = s.toList.map fun c => if c = '-' then '_' else c := by
  simp [pyName, String.toList_map]

theorem pyName_id {s : String} (h : '-' ∉ s.toList) : pyName s = s := by
  apply String.toList_inj.1
  rw [pyName_toList]
  conv => rhs; rw [← List.map_id s.toList]
  refine List.map_congr_left fun c hc => ?_
  rw [if_neg (by rintro rfl; exact h hc)]; rfl

theorem char_inj {c d : Char} (hc : c.isAlphanum = true ∨ c = '-') (hd : d.isAlphanum = true ∨ d = '-')
    (h : (if c = '-' then '_' else c) = if d = '-' then '_' else d) : c = d := by
  by_cases h1 : c = '-' <;> by_cases h2 : d = '-'
  · rw [h1, h2]
  · rw [if_pos h1, if_neg h2] at h
    rcases hd with hd | hd
    · rw [← h] at hd; exact absurd hd (by decide)
    · exact absurd hd h2
  · rw [if_neg h1, if_pos h2] at h
    rcases hc with hc | hc
    · rw [h] at hc; exact absurd hc (by decide)
    · exact absurd hc h1
  · rwa [if_neg h1, if_neg h2] at h

theorem map_char_inj : ∀ {l m : List Char}, (∀ c ∈ l, c.isAlphanum = true ∨ c = '-') →
    (∀ c ∈ m, c.isAlphanum = true ∨ c = '-') →
    (l.map fun c => if c = '-' then '_' else c) = (m.map fun c => if c = '-' then '_' else c) → l = m
  | [], [], _, _, _ => rfl
  | [], _ :: _, _, _, h => by simp at h
  | _ :: _, [], _, _, h => by simp at h
  | c :: l, d :: m, hl, hm, h => by
    simp only [List.map_cons, List.cons.injEq] at h
    rw [char_inj (hl c (by simp)) (hm d (by simp)) h.1,
      map_char_inj (fun c hc => hl c (List.mem_cons_of_mem _ hc)) (fun c hc => hm c (List.mem_cons_of_mem _ hc)) h.2]

theorem pyName_inj {s t : String} (hs : Word s) (ht : Word t) (h : pyName s = pyName t) : s = t := by
  apply String.toList_inj.1
  have := congrArg String.toList h
  rw [pyName_toList, pyName_toList] at this
  exact map_char_inj hs ht this

theorem isAlphanum_hyphen {c : Char} (h : c.isLower = true ∨ c.isUpper = true) : c ≠ '-' := by
  rintro rfl
  revert h; decide

theorem pyName_head {s : String} {c : Char} {r : List Char} (h : s.toList = c :: r)
    (hc : c.isLower = true ∨ c.isUpper = true) : ∃ r', (pyName s).toList = c :: r' := by
  rw [pyName_toList, h, List.map_cons, if_neg (isAlphanum_hyphen hc)]
  exact ⟨_, rfl⟩

theorem lower_not_upper {c : Char} (h : c.isLower = true) (h' : c.isUpper = true) : False := by
  simp only [Char.isLower, Char.isUpper, Bool.and_eq_true, decide_eq_true_eq] at h h'
  have h1 := h.1
  have h2 := h'.2
  simp only [UInt32.le_iff_toNat_le, GE.ge] at h1 h2
  have e1 : ('a'.val).toNat = 97 := rfl
  have e2 : ('Z'.val).toNat = 90 := rfl
  omega

/-- Names of components and values differ from names of types. -/
theorem lower_ne_upper {s t : String} (hs : LowerName s) (ht : UpperName t) : pyName s ≠ pyName t := by
  obtain ⟨_, c, r, hc, hl⟩ := hs
  obtain ⟨_, d, q, hd, hu⟩ := ht
  intro h
  obtain ⟨r', h1⟩ := pyName_head hc (.inl hl)
  obtain ⟨q', h2⟩ := pyName_head hd (.inr hu)
  rw [h, h2] at h1
  rw [← (List.cons.inj h1).1] at hl
  exact lower_not_upper hl hu

/-! ## lookup -/

theorem lookup_append' {α : Type} (x : String) : ∀ (l m : List (String × α)),
    (l ++ m).lookup x = (l.lookup x).or (m.lookup x)
  | [], m => by simp
  | (k, v) :: l, m => by
    rw [List.cons_append, List.lookup_cons, List.lookup_cons, lookup_append' x l m]
    cases h : x == k <;> simp [h]

theorem mem_of_lookup {α : Type} {x : String} {v : α} : ∀ {l : List (String × α)}, l.lookup x = some v → (x, v) ∈ l
  | [], h => by simp at h
  | (k, w) :: l, h => by
    rw [List.lookup_cons] at h
    cases hk : x == k with
    | true =>
      rw [hk] at h
      simp only [Option.some.injEq] at h
      rw [eq_of_beq hk, h]; simp
    | false =>
      rw [hk] at h
      exact List.mem_cons_of_mem _ (mem_of_lookup h)

theorem lookup_of_mem {α : Type} {x : String} {v : α} : ∀ {l : List (String × α)}, (l.map Prod.fst).Nodup →
    (x, v) ∈ l → l.lookup x = some v
  | [], _, h => by simp at h
  | (k, w) :: l, hn, h => by
    rw [List.map_cons, List.nodup_cons] at hn
    rcases List.mem_cons.1 h with h | hm
    · obtain ⟨rfl, rfl⟩ := Prod.mk.inj h
      simp
    · have : x ≠ k := by rintro rfl; exact hn.1 (List.mem_map.2 ⟨_, hm, rfl⟩)
      rw [List.lookup_cons, beq_false_of_ne this]
      exact lookup_of_mem hn.2 hm

theorem lookupLast_of_mem {α : Type} {x : String} {v : α} {l : List (String × α)} (hn : (l.map Prod.fst).Nodup)
    (h : (x, v) ∈ l) : lookupLast l x = some v :=
  lookup_of_mem (by rw [List.map_reverse]; exact (List.reverse_perm _).nodup_iff.2 hn) (List.mem_reverse.2 h)

theorem mem_of_lookupLast {α : Type} {x : String} {v : α} {l : List (String × α)} (h : lookupLast l x = some v) :
    (x, v) ∈ l := List.mem_reverse.1 (mem_of_lookup h)

/-! ## constraints -/

theorem elem_toks_noEllipsis (e : Verif.Elem) : CTok.ellipsis ∉ e.toks := by
  cases e with
  | value e => simp [Elem.toks]
  | range lo a hi b => cases a <;> cases b <;> simp [Elem.toks]

theorem elem_toks_head (e : Verif.Elem) : e.toks.head? = some (.value (Spec.Elem.lower e)) := by
  cases e with
  | value e => rfl
  | range lo a hi b => rfl

theorem elem_toks_last (e : Verif.Elem) : e.toks.getLast? = some (.value (Spec.Elem.upper e)) := by
  cases e with
  | value e => rfl
  | range lo a hi b => cases a <;> cases b <;> rfl

theorem unionToks_cons (e f : Verif.Elem) (es : List Verif.Elem) :
    unionToks ((e :: f :: es).map fun e => [e]) = e.toks ++ .bar :: unionToks ((f :: es).map fun e => [e]) := rfl

theorem union_noEllipsis : ∀ (es : List Verif.Elem), CTok.ellipsis ∉ unionToks (es.map fun e => [e])
  | [] => by simp [unionToks]
  | [e] => elem_toks_noEllipsis e
  | e :: f :: es => by
    rw [unionToks_cons, List.mem_append, List.mem_cons]
    rintro (h | h | h)
    · exact elem_toks_noEllipsis e h
    · cases h
    · exact union_noEllipsis (f :: es) h

theorem union_head (e : Verif.Elem) (es : List Verif.Elem) :
    (unionToks ((e :: es).map fun e => [e])).head? = some (.value (Spec.Elem.lower e)) := by
  cases es with
  | nil => exact elem_toks_head e
  | cons f es => rw [unionToks_cons, List.head?_append, elem_toks_head]; rfl

theorem union_last {last : Verif.Elem} : ∀ (es : List Verif.Elem), es.getLast? = some last →
    (unionToks (es.map fun e => [e])).getLast? = some (.value (Spec.Elem.upper last))
  | [], h => by simp at h
  | [e], h => by
    simp only [List.getLast?_singleton, Option.some.injEq] at h
    subst h; exact elem_toks_last e
  | e :: f :: es, h => by
    have h' : (f :: es).getLast? = some last := by rw [← h, List.getLast?_cons_cons]
    rw [unionToks_cons, List.getLast?_append, List.getLast?_cons, union_last (f :: es) h']
    rfl

/-- The constraint tuple of such a constraint. -/
theorem tuple_ok {n : Notation} {es : List Verif.Elem} {first last : Verif.Elem}
    (hr : n.root = es.map (fun e => [e])) (ha : n.additional = []) (hf : es.head? = some first)
    (hl : es.getLast? = some last) :
    parseConstraint n.toks = .ok ⟨Spec.Elem.lower first, Spec.Elem.upper last, n.marker⟩ := by
  obtain ⟨es', rfl⟩ : ∃ es', es = first :: es' := by
    cases es with
    | nil => simp at hf
    | cons e es' => simp at hf; exact ⟨es', by rw [hf]⟩
  have hn := union_noEllipsis (first :: es')
  have hh := union_head first es'
  have hl := union_last _ hl
  rw [← hr] at hn hh hl
  have he : n.toks.erase .ellipsis = unionToks n.root := by
    rw [Notation.toks, ha]
    cases n.marker with
    | true =>
      rw [if_pos rfl, List.erase_append_right _ hn]
      simp [unionToks]
    | false => simpa using List.erase_of_not_mem hn
  have hc : n.toks.contains .ellipsis = n.marker := by
    rw [Notation.toks, ha]
    cases n.marker with
    | true => simp
    | false => simpa using hn
  rw [parseConstraint, he, hh, hl, hc]

theorem endIs_unique {ν : List (String × Ty × Val)} {e : End} {a b : Int} (h : EndIs ν e a) (h' : EndIs ν e b) :
    a = b := by
  cases h with
  | num => cases h'; rfl
  | ref h =>
    cases h' with
    | ref h' => rw [h] at h'; injection h' with h'; injection h' with _ h'; injection h'

theorem endIs_ne {ν : List (String × Ty × Val)} {e : End} {a : Int} (h : EndIs ν e a) : e ≠ .min ∧ e ≠ .max := by
  cases h <;> simp

/-- The endpoint of the generated constraint: `none` for MIN and MAX. -/
def EndOpt (ν : List (String × Ty × Val)) (special : End) (e : End) (o : Option Int) : Prop :=
  (e = special ∧ o = none) ∨ ∃ a, EndIs ν e a ∧ o = some a

theorem inElem_lower {ν : List (String × Ty × Val)} {e : Verif.Elem} (hc : Spec.Elem.closed e) {z : Int}
    (hz : InElem ν e z) : (Spec.Elem.lower e = .min ∧ ∀ y, y ≤ z → InElem ν e y) ∨
      ∃ a, EndIs ν (Spec.Elem.lower e) a ∧ InElem ν e a := by
  cases e with
  | value e => exact .inr ⟨z, hz, hz⟩
  | range lo a hi b =>
    obtain ⟨rfl, rfl⟩ := hc
    obtain ⟨h1, h2⟩ := hz
    have below : ∀ y, y ≤ z → Below ν hi false y := by
      intro y hy
      rcases h2 with h2 | ⟨b, hb, hzb⟩
      · exact .inl h2
      · refine .inr ⟨b, hb, ?_⟩
        simp only [Bool.false_eq_true, if_false] at hzb ⊢
        omega
    rcases h1 with h1 | ⟨a, ha, haz⟩
    · exact .inl ⟨h1, fun y hy => ⟨.inl h1, below y hy⟩⟩
    · simp only [Bool.false_eq_true, if_false] at haz
      exact .inr ⟨a, ha, .inr ⟨a, ha, by simp⟩, below a haz⟩

theorem inElem_upper {ν : List (String × Ty × Val)} {e : Verif.Elem} (hc : Spec.Elem.closed e) {z : Int}
    (hz : InElem ν e z) : (Spec.Elem.upper e = .max ∧ ∀ y, z ≤ y → InElem ν e y) ∨
      ∃ a, EndIs ν (Spec.Elem.upper e) a ∧ InElem ν e a := by
  cases e with
  | value e => exact .inr ⟨z, hz, hz⟩
  | range lo a hi b =>
    obtain ⟨rfl, rfl⟩ := hc
    obtain ⟨h1, h2⟩ := hz
    have above : ∀ y, z ≤ y → Above ν lo false y := by
      intro y hy
      rcases h1 with h1 | ⟨b, hb, hzb⟩
      · exact .inl h1
      · refine .inr ⟨b, hb, ?_⟩
        simp only [Bool.false_eq_true, if_false] at hzb ⊢
        omega
    rcases h2 with h2 | ⟨a, ha, haz⟩
    · exact .inl ⟨h2, fun y hy => ⟨above y hy, .inl h2⟩⟩
    · simp only [Bool.false_eq_true, if_false] at haz
      exact .inr ⟨a, ha, above a haz, .inr ⟨a, ha, by simp⟩⟩

theorem mem_of_head? {α : Type} {l : List α} {x : α} (h : l.head? = some x) : x ∈ l := by
  cases l with
  | nil => simp at h
  | cons y l => simp at h; simp [h]

theorem mem_of_getLast?' {α : Type} {l : List α} {x : α} (h : l.getLast? = some x) : x ∈ l :=
  List.mem_of_getLast? h

/-- The bounds of the set are those of the first and the last element. -/
theorem hull_ends {ν : List (String × Ty × Val)} {n : Notation} {es : List Verif.Elem} {first last : Verif.Elem}
    (hr : n.root = es.map (fun e => [e])) (hf : es.head? = some first) (hl : es.getLast? = some last)
    (hc : ∀ e ∈ es, Spec.Elem.closed e ∧ ∃ z, InElem ν e z)
    (hb : ∀ z, InSet ν n.root z → Above ν (Spec.Elem.lower first) false z ∧ Below ν (Spec.Elem.upper last) false z)
    {P : Int → Prop} (hP : ∀ z, InSet ν n.root z → P z) {lo hi : Option Int}
    (hh : Hull (fun z => P z ∧ InSet ν n.root z) lo hi) :
    EndOpt ν .min (Spec.Elem.lower first) lo ∧ EndOpt ν .max (Spec.Elem.upper last) hi := by
  have inset : ∀ e ∈ es, ∀ z, InElem ν e z → InSet ν n.root z := by
    intro e he z hz
    refine ⟨[e], by rw [hr]; exact List.mem_map.2 ⟨e, he, rfl⟩, by simp, ?_⟩
    intro e' he'
    rw [List.mem_singleton] at he'
    rwa [he']
  obtain ⟨_, h1, h2⟩ := hh
  constructor
  · obtain ⟨c, z, hz⟩ := hc first (mem_of_head? hf)
    rcases inElem_lower c hz with ⟨hmin, hdown⟩ | ⟨a, ha, hia⟩
    · left
      refine ⟨hmin, ?_⟩
      cases lo with
      | none => rfl
      | some l =>
        obtain ⟨_, hleast⟩ := h1
        exfalso
        have hw := inset first (mem_of_head? hf) _ (hdown (min z (l - 1)) (by omega))
        have := hleast _ ⟨hP _ hw, hw⟩
        omega
    · right
      refine ⟨a, ha, ?_⟩
      have hsa := inset first (mem_of_head? hf) a hia
      have least : ∀ z, InSet ν n.root z → a ≤ z := by
        intro z hz
        rcases (hb z hz).1 with h | ⟨a', ha', hle⟩
        · exact absurd h (endIs_ne ha).1
        · rw [endIs_unique ha ha']
          simpa using hle
      cases lo with
      | none =>
        obtain ⟨z, ⟨_, hz⟩, hlt⟩ := h1 a
        have := least z hz
        omega
      | some l =>
        obtain ⟨⟨_, hl1⟩, hl2⟩ := h1
        have e1 := least l hl1
        have e2 := hl2 a ⟨hP a hsa, hsa⟩
        rw [show l = a by omega]
  · obtain ⟨c, z, hz⟩ := hc last (mem_of_getLast?' hl)
    rcases inElem_upper c hz with ⟨hmax, hup⟩ | ⟨a, ha, hia⟩
    · left
      refine ⟨hmax, ?_⟩
      cases hi with
      | none => rfl
      | some l =>
        obtain ⟨_, hgr⟩ := h2
        exfalso
        have hw := inset last (mem_of_getLast?' hl) _ (hup (max z (l + 1)) (by omega))
        have := hgr _ ⟨hP _ hw, hw⟩
        omega
    · right
      refine ⟨a, ha, ?_⟩
      have hsa := inset last (mem_of_getLast?' hl) a hia
      have greatest : ∀ z, InSet ν n.root z → z ≤ a := by
        intro z hz
        rcases (hb z hz).2 with h | ⟨a', ha', hle⟩
        · exact absurd h (endIs_ne ha).2
        · rw [endIs_unique ha ha']
          simpa using hle
      cases hi with
      | none =>
        obtain ⟨z, ⟨_, hz⟩, hlt⟩ := h2 a
        have := greatest z hz
        omega
      | some l =>
        obtain ⟨⟨_, hl1⟩, hl2⟩ := h2
        have e1 := greatest l hl1
        have e2 := hl2 a ⟨hP a hsa, hsa⟩
        rw [show l = a by omega]

theorem hull_true {S : Int → Prop} {lo hi : Option Int} (h : Hull S lo hi) : Hull (fun z => True ∧ S z) lo hi := by
  have : (fun z => True ∧ S z) = S := by funext z; simp
  rwa [this]

theorem checked_ok {S : Int → Prop} {lo hi : Option Int} (h : Hull S lo hi) : checked (lo, hi) = .ok (lo, hi) := by
  obtain ⟨_, h1, h2⟩ := h
  cases lo <;> cases hi <;> simp only [checked]
  rw [if_pos (h1.2 _ h2.1)]

/-- The values of the module are loaded under their names, as far as they can be named. -/
def ValuesIn (env : List (String × PyObj)) (ν : List (String × Ty × Val)) : Prop :=
  ∀ n T v, ν.lookup n = some (T, v) → env.lookup (pyName n) = some (.val T v)

theorem endValue_ok {env : List (String × PyObj)} {ν : List (String × Ty × Val)} (hv : ValuesIn env ν) {e : End}
    {a : Int} (h : EndIs ν e a) (hn : ∀ s, e = .ref s → '-' ∉ s.toList) : endValue env e = .ok (some a) := by
  cases h with
  | num => rfl
  | ref h =>
    have := hv _ _ _ h
    rw [pyName_id (hn _ rfl)] at this
    simp only [endValue, this]

theorem endpoints_ok {env : List (String × PyObj)} {ν : List (String × Ty × Val)} (hv : ValuesIn env ν) {lo hi : End}
    {l h : Option Int} {m : Bool} (hlo : EndOpt ν .min lo l) (hhi : EndOpt ν .max hi h)
    (hn : ∀ s, lo = .ref s ∨ hi = .ref s → '-' ∉ s.toList) : endpointsOf env ⟨lo, hi, m⟩ = .ok (l, h) := by
  have n1 : lo ≠ .max := by
    rcases hlo with ⟨rfl, _⟩ | ⟨a, ha, _⟩
    · simp
    · exact (endIs_ne ha).2
  have n2 : hi ≠ .min := by
    rcases hhi with ⟨rfl, _⟩ | ⟨a, ha, _⟩
    · simp
    · exact (endIs_ne ha).1
  have e1 : endValue env lo = .ok l := by
    rcases hlo with ⟨rfl, rfl⟩ | ⟨a, ha, rfl⟩
    · rfl
    · exact endValue_ok hv ha fun s hs => hn s (.inl hs)
  have e2 : endValue env hi = .ok h := by
    rcases hhi with ⟨rfl, rfl⟩ | ⟨a, ha, rfl⟩
    · rfl
    · exact endValue_ok hv ha fun s hs => hn s (.inr hs)
  simp only [endpointsOf, n1, n2, decide_false, Bool.or_self, Bool.false_eq_true, if_false, e1, e2, bind, Except.bind,
    pure, Except.pure]

/-- A value constraint is carried into the class. -/
theorem range_ok {env : List (String × PyObj)} {ν : List (String × Ty × Val)} (hv : ValuesIn env ν) {n : Notation}
    {lo hi : Option Int} {ext : Bool} (ha : Ascending ν n) (hr : RangeOf ν n lo hi ext) :
    ∃ c, parseConstraint n.toks = .ok c ∧ endpointsOf env c = .ok (lo, hi) ∧ checked (lo, hi) = .ok (lo, hi) ∧
      c.ext = ext := by
  obtain ⟨⟨es, hroot, hc, first, last, hf, hl, hb, hn⟩, hadd⟩ := ha
  obtain ⟨hh, rfl⟩ := hr
  have := hull_ends hroot hf hl hc hb (fun z _ => trivial) (hull_true hh)
  exact ⟨_, tuple_ok hroot hadd hf hl, endpoints_ok hv this.1 this.2 hn, checked_ok hh, rfl⟩

theorem sizeEnd_ok (o : Option Nat) : sizeEnd (o.map Int.ofNat) = .ok o := by
  cases o with
  | none => rfl
  | some n => simp [sizeEnd]

/-- A size constraint is carried into the class. -/
theorem size_ok {env : List (String × PyObj)} {ν : List (String × Ty × Val)} (hv : ValuesIn env ν) {con : Con}
    {s : SizeC} (ha : AscendingSize ν con) (hs : SizeOf ν con s) :
    ∃ c p, con.tuple = .ok c ∧ endpointsOf env c = .ok p ∧ checked p = .ok p ∧
      sizeConstraint c.ext p = .ok s := by
  obtain ⟨n, outer, rfl, hext, hh⟩ := hs
  obtain ⟨⟨⟨es, hroot, hc, first, last, hf, hl, hb, hn⟩, hadd⟩, rfl, h0⟩ := ha
  have hpos : ∀ z, InSet ν n.root z → 0 ≤ z := by
    intro z hz
    obtain ⟨a, ha0, ha⟩ := h0 [first] first (by
      rw [hroot]
      cases es with
      | nil => simp at hf
      | cons e es => simp at hf; simp [hf]) (by simp)
    rcases (hb z hz).1 with h | ⟨a', ha', hle⟩
    · exact absurd h (endIs_ne ha).1
    · rw [← endIs_unique ha ha'] at hle
      simp only [Bool.false_eq_true, if_false] at hle
      omega
  have := hull_ends hroot hf hl hc hb hpos hh
  refine ⟨_, _, tuple_ok hroot hadd hf hl, endpoints_ok hv this.1 this.2 hn, checked_ok hh, ?_⟩
  simp only [sizeConstraint, sizeEnd_ok, bind, Except.bind, pure, Except.pure]
  rw [Bool.or_false] at hext
  cases s
  simp_all

end Verif
