import Verif.Lemmas.GenConstraint
import Verif.Lemmas.Bits
import Verif.Props.Template
/-!
# Lemmas on values and enumerations of generated classes
-/
namespace Verif

open Spec

theorem permits_test {c : Constr} {z : Int} (h : permits c z) : c.test z = true := by
  cases c with
  | noConstraint => rfl
  | valueRange lo hi ext =>
    rcases h with rfl | ⟨h1, h2⟩
    · simp [Constr.test]
    · have e1 : leLo lo z = true := by cases lo <;> simp_all [leLo]
      have e2 : leHi z hi = true := by cases hi <;> simp_all [leHi]
      simp [Constr.test, e1, e2]
  | extensionMarker _ => exact h.elim
  | singleValue _ _ => exact h.elim
  | union _ _ => exact h.elim
  | inter _ _ => exact h.elim

theorem permitsSize_test {c : SizeC} {n : Nat} (h : permitsSize c n) : c.test n = true := by
  obtain ⟨ext, lo, hi⟩ := c
  rcases h with h | ⟨h1, h2⟩
  · simp only at h; subst h; simp [SizeC.test]
  · cases lo <;> cases hi <;> simp_all [SizeC.test]

/-! ## strings -/

theorem digitBits_eq (d : Fin 16) : natToBits 4 d.val = digitBits d := by
  revert d; decide

theorem hexBits_eq (h : List (Fin 16)) : hexBits h = h.flatMap digitBits := by
  induction h with
  | nil => rfl
  | cons d h ih => rw [hexBits, List.flatMap_cons, List.flatMap_cons, ← hexBits, ih, digitBits_eq]

theorem hexBits_length (h : List (Fin 16)) : (h.flatMap digitBits).length = 4 * h.length := by
  induction h with
  | nil => rfl
  | cons d h ih => rw [List.flatMap_cons, List.length_append, ih, List.length_cons, digitBits]; simp; omega

theorem hexOctets_eq (o : List UInt8) : hexOctets (o.flatMap octetDigits) = o := by
  induction o with
  | nil => rfl
  | cons x o ih =>
    rw [List.flatMap_cons, octetDigits]
    show UInt8.ofNat _ :: hexOctets (o.flatMap octetDigits) = _
    rw [ih]
    congr 1
    rw [show x.toNat / 16 * 16 + x.toNat % 16 = x.toNat by omega]
    exact UInt8.ofNat_toNat

/-- The bits of an octet. -/
def octetBits8 (x : UInt8) : Bits := (octetDigits x).flatMap digitBits

theorem octetBits8_length (x : UInt8) : (octetBits8 x).length = 8 := by
  simp [octetBits8, octetDigits, digitBits]

theorem octetBits8_val (x : UInt8) : bitsToNat (octetBits8 x) = x.toNat := by
  have : ∀ d : Fin 16, bitsToNat (digitBits d) = d.val := by decide
  rw [octetBits8, octetDigits, List.flatMap_cons, List.flatMap_cons, List.flatMap_nil, List.append_nil,
    bitsToNat_append, this, this]
  simp [digitBits]
  omega

theorem chunks_flat : ∀ (o : List UInt8), binOctets.chunks o.length (o.flatMap octetBits8) = o.map octetBits8
  | [] => rfl
  | x :: o => by
    rw [List.length_cons, List.flatMap_cons, binOctets.chunks, List.map_cons]
    rw [List.take_left' (octetBits8_length x), List.drop_left' (octetBits8_length x), chunks_flat o]

theorem octetBits8_total (o : List UInt8) : (o.flatMap octetBits8).length = 8 * o.length := by
  induction o with
  | nil => rfl
  | cons x o ih => rw [List.flatMap_cons, List.length_append, ih, octetBits8_length, List.length_cons]; omega

theorem binOctets_eq {o : List UInt8} (h : o ≠ []) : binOctets ((o.flatMap octetDigits).flatMap digitBits) = o := by
  rw [List.flatMap_assoc]
  show binOctets (o.flatMap octetBits8) = o
  have hne : (o.flatMap octetBits8).isEmpty = false := by
    have := octetBits8_total o
    cases o with
    | nil => exact absurd rfl h
    | cons x o =>
      cases hb : ((x :: o).flatMap octetBits8) with
      | nil => rw [hb] at this; simp at this
      | cons _ _ => rfl
  rw [binOctets, hne]
  simp only [Bool.false_eq_true, if_false, binOctets.toOctets]
  rw [octetBits8_total, show (8 * o.length + 7) / 8 = o.length by omega, chunks_flat, List.map_map]
  conv => rhs; rw [← List.map_id o]
  refine List.map_congr_left fun x _ => ?_
  simp only [Function.comp, octetBits8_length, Nat.sub_self, List.replicate_zero, List.append_nil, octetBits8_val, id]
  exact UInt8.ofNat_toNat

/-! ## enumerations -/

theorem lower_identifier {s : String} (h : LowerName s) : Identifier s := by
  obtain ⟨hw, c, r, hc, hl⟩ := h
  constructor
  · rintro rfl
    have : c = '.' := by
      have h2 : "...".toList = ['.', '.', '.'] := rfl
      rw [h2] at hc
      exact (List.cons.inj hc).1.symm
    rw [this] at hl
    exact absurd hl (by decide)
  · intro d hd
    refine ⟨?_, ?_, ?_, ?_⟩ <;> (rintro rfl; have := hw _ hd; revert this; decide)

theorem enumFold_exact : ∀ (names : List String) (st : EnumState), (∀ s ∈ names, Identifier s) →
    (names.map EnumItem.id).foldl enumStep st =
      if st.marker then { st with addition := st.addition ++ numberFrom st.index names, index := st.index + names.length }
      else { st with root := st.root ++ numberFrom st.index names, index := st.index + names.length }
  | [], st, _ => by simp [numberFrom]
  | s :: names, st, h => by
    have hs := h s (by simp)
    have e : enumStep st (.id s) = if st.marker then
        { st with addition := st.addition ++ [(s, (st.index : Int))], index := st.index + 1 }
      else { st with root := st.root ++ [(s, (st.index : Int))], index := st.index + 1 } := by
      have hne : EnumItem.id s ≠ .id "..." := by simpa using hs.1
      rw [enumStep, if_neg hne]
      cases st.marker <;> simp [EnumItem.str, Props.pyStrip_identifier hs]
    rw [List.map_cons, List.foldl_cons, e]
    have ih := fun st => enumFold_exact names st fun s hs => h s (List.mem_cons_of_mem _ hs)
    cases hm : st.marker with
    | true =>
      simp only [if_true]
      rw [ih]
      simp [hm, numberFrom, Nat.add_assoc, Nat.add_comm 1]
    | false =>
      simp only [Bool.false_eq_true, if_false]
      rw [ih]
      simp [hm, numberFrom, Nat.add_assoc, Nat.add_comm 1]

theorem enumItems_exact {root : List String} {adds : Option (List String)}
    (h : ∀ s ∈ root ++ adds.getD [], LowerName s) :
    (enumItems (enumTokens root adds)).marker = adds.isSome ∧
    (enumItems (enumTokens root adds)).root = numberFrom 0 root ∧
    (enumItems (enumTokens root adds)).addition = numberFrom root.length (adds.getD []) := by
  have hr : ∀ s ∈ root, Identifier s := fun s hs => lower_identifier (h s (List.mem_append_left _ hs))
  cases adds with
  | none =>
    rw [enumItems, enumTokens, enumFold_exact root _ hr]
    simp [numberFrom]
  | some adds =>
    have ha : ∀ s ∈ adds, Identifier s := fun s hs => lower_identifier (h s (List.mem_append_right _ hs))
    rw [enumItems, enumTokens, List.foldl_append, enumFold_exact root _ hr, List.foldl_cons]
    have e : ∀ st, enumStep st (.id "...") = { st with marker := true } := fun st => by simp [enumStep]
    rw [e, enumFold_exact adds _ ha]
    simp

theorem numberFrom_names : ∀ (k : Nat) (l : List String), (numberFrom k l).map Prod.fst = l
  | _, [] => rfl
  | k, s :: l => by rw [numberFrom, List.map_cons, numberFrom_names (k + 1) l]

/-! ## literals -/

/-- The kind of a type that is not a reference. -/
def Shape : TObj → Ty → Prop
  | .simple .integer _, .integer _ => True
  | .simple .boolean _, .boolean => True
  | .simple .octetString _, .octetString _ => True
  | .simple .bitString _, .bitString _ => True
  | .simple _ _, _ => False
  | .enumerated _, .enumerated _ root add =>
    ((root ++ add).map Prod.fst).Nodup ∧ ∀ s ∈ (root ++ add).map Prod.fst, LowerName s
  | .enumerated _, _ => False
  | _, _ => True

/-- Values that can be named in the environment, apart from the local names. -/
def Named (env : List (String × PyObj)) (ids : List String) (ν : List (String × Ty × Val)) : Prop :=
  ∀ s T v, '-' ∉ s.toList → s ∉ ids.map pyName → ν.lookup s = some (T, v) → env.lookup s = some (.val T v)

theorem literal_ok {env : List (String × PyObj)} {ids : List String} {ν : List (String × Ty × Val)} {as : List Assign}
    {t : TObj} {l : Lit} {T : Ty} {v : Val} (hl : LiteralFor as ids t l) (hs : Shape t T) (hv : LitIs ν T l v)
    (hnamed : Named env ids ν) (hlow : ∀ s x, ν.lookup s = some x → LowerName s) :
    ∃ e, parseValue t l = some e ∧ construct env T e = .ok v ∧
      (∀ s, e = .name s → l = .word s ∧ ∀ m l', Assign.constant s m l' ∉ as) := by
  have upper : ∀ x, ν.lookup "TRUE" = some x → False := by
    intro x hx
    obtain ⟨_, c, r, hc, hl⟩ := hlow _ _ hx
    have h2 : "TRUE".toList = ['T', 'R', 'U', 'E'] := rfl
    rw [h2] at hc
    rw [← (List.cons.inj hc).1] at hl
    exact absurd hl (by decide)
  have upper' : ∀ x, ν.lookup "FALSE" = some x → False := by
    intro x hx
    obtain ⟨_, c, r, hc, hl⟩ := hlow _ _ hx
    have h2 : "FALSE".toList = ['F', 'A', 'L', 'S', 'E'] := rfl
    rw [h2] at hc
    rw [← (List.cons.inj hc).1] at hl
    exact absurd hl (by decide)
  cases hl with
  | num =>
    cases hv with
    | int hp => exact ⟨_, rfl, by simp [construct, permits_test hp], by simp⟩
    | _ => exact hs.elim
  | name h1 h2 h3 =>
    cases hv with
    | intRef hn hp =>
      refine ⟨_, rfl, ?_, fun s hs => ?_⟩
      · simp [construct, hnamed _ _ _ h2 h3 hn, permits_test hp]
      · cases hs; exact ⟨rfl, h1⟩
    | _ => exact hs.elim
  | tt =>
    generalize hg : Lit.word "TRUE" = w at hv
    cases hv with
    | tt => exact ⟨_, rfl, rfl, by simp⟩
    | ff => injection hg with hg; exact absurd hg (by decide)
    | boolRef h => injection hg with hg; subst hg; exact (upper _ h).elim
    | _ => exact hs.elim
  | ff =>
    generalize hg : Lit.word "FALSE" = w at hv
    cases hv with
    | ff => exact ⟨_, rfl, by simp [construct], by simp⟩
    | tt => injection hg with hg; exact absurd hg (by decide)
    | boolRef h => injection hg with hg; subst hg; exact (upper' _ h).elim
    | _ => exact hs.elim
  | octets =>
    cases hv with
    | octets hp hne => exact ⟨_, rfl, by simp [construct, binOctets_eq hne, permitsSize_test hp], by simp⟩
    | _ => exact hs.elim
  | hexOctets =>
    cases hv with
    | hexOctets hp => exact ⟨_, rfl, by simp [construct, hexOctets_eq, permitsSize_test hp], by simp⟩
    | _ => exact hs.elim
  | bits =>
    cases hv with
    | bits hp => exact ⟨_, rfl, by simp [construct, permitsSize_test hp], by simp⟩
    | _ => exact hs.elim
  | hexBits =>
    cases hv with
    | hexBits hp =>
      refine ⟨_, rfl, ?_, by simp⟩
      simp only [construct, hexBits_eq, hexBits_length, permitsSize_test hp, if_true]
    | _ => exact hs.elim
  | item h1 =>
    cases hv with
    | item hm =>
      refine ⟨_, rfl, ?_, by simp⟩
      simp only [construct, lookup_of_mem hs.1 hm]
    | _ => exact hs.elim

end Verif
