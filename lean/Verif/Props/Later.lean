import Verif.Lemmas.Later
import Verif.Props.Versions
/-!
# C62: receivers with different versions of ENUMERATED and CHOICE types
-/
namespace Verif.Props
open Verif

/-- A receiver with the older schema returns a value for any octets exactly if the receiver with the later one returns the
same value and that value uses only items and alternatives of the older schema. -/
theorem C62_receivers_agree {old new : Ty} (h : Spec.Later old new) (bs : List UInt8) (w : Val) :
    decode old bs = .ok w ↔ decode new bs = .ok w ∧ Spec.known old w = true := by
  unfold decode
  cases hi : PerBytes.init (hexlify bs) with
  | error e => exact ⟨fun h => (nomatch h), fun h => (nomatch h.1)⟩
  | ok p =>
    have b := below_ty old h p
    have last : ∀ (u v : Val), ((match u with
        | .choice i v => if equalsEmpty v then .error .typeError else return .choice i v
        | v => return v) : Except Err Val) = .ok v → v = u := by
      intro u v e
      cases u with
      | choice i x =>
        simp only at e
        split at e
        · cases e
        · cases e; rfl
      | _ => cases e; rfl
    show (decTy old p >>= _) = _ ↔ (decTy new p >>= _) = _ ∧ _
    constructor
    · intro e
      obtain ⟨r, e1, e2⟩ := Except.bind_eq_ok e
      obtain ⟨i, j⟩ := (b r.1 r.2).1 e1
      rw [i]
      exact ⟨e2, by rw [last r.1 w e2]; exact j⟩
    · rintro ⟨e, j⟩
      obtain ⟨r, e1, e2⟩ := Except.bind_eq_ok e
      rw [last r.1 w e2] at j
      rw [(b r.1 r.2).2 ⟨e1, j⟩]
      exact e2

/-- Hence the older receiver never takes a message for something else than the later one does. -/
theorem C62_never_misread {old new : Ty} (h : Spec.Later old new) {bs : List UInt8} {v w : Val}
    (ho : decode old bs = .ok v) (hn : decode new bs = .ok w) : v = w := by
  have := ((C62_receivers_agree h bs v).1 ho).1
  rw [hn] at this; cases this; rfl

/-- A message whose value uses an item or alternative the older schema lacks is refused with the older schema. -/
theorem C62_unknown_refused {old new : Ty} (h : Spec.Later old new) {bs : List UInt8} {w : Val}
    (hn : decode new bs = .ok w) (hk : Spec.known old w = false) : ∃ e, decode old bs = .error e := by
  cases ho : decode old bs with
  | error e => exact ⟨e, rfl⟩
  | ok v =>
    obtain ⟨i, j⟩ := (C62_receivers_agree h bs v).1 ho
    rw [hn] at i; cases i
    rw [hk] at j; cases j

/-- Values that use only items and alternatives of the older schema have the same encoding with both. -/
theorem C62_senders_agree {old new : Ty} (h : Spec.Later old new) (hs : Spec.defaultsKnown old = true) {v : Val}
    (hk : Spec.known old v = true) : encode new v = encode old v :=
  encode_congr (enc_later old h hs v hk)

/-- An older and a later version: an item and alternatives are added two levels below the top. -/
def laterOld : Ty :=
  .sequence true (Fields.ofList [("kind", .default (.enum 1), .enumerated true [("a", 0)] [("b", 1)]),
      ("parts", .mandatory, .seqOf ⟨false, some 0, some 3⟩
        (.choice true (Fields.ofList [("flag", .mandatory, .boolean)]) .nil .nil))])
    (Fields.ofList [("more", .optional, .choice true (Fields.ofList [("x", .mandatory, .boolean)])
      (Fields.ofList [("y", .mandatory, .boolean)]) .nil)]) .nil
def laterNew : Ty :=
  .sequence true (Fields.ofList [("kind", .default (.enum 1), .enumerated true [("a", 0)] [("b", 1), ("c", 2)]),
      ("parts", .mandatory, .seqOf ⟨false, some 0, some 3⟩
        (.choice true (Fields.ofList [("flag", .mandatory, .boolean)])
          (Fields.ofList [("code", .mandatory, .enumerated true [("p", 0), ("q", 1)] [])]) .nil))])
    (Fields.ofList [("more", .optional, .choice true (Fields.ofList [("x", .mandatory, .boolean)])
      (Fields.ofList [("y", .mandatory, .boolean)]) (Groups.ofList [[("z", .mandatory, .boolean)]]))]) .nil
theorem laterSample : Spec.Later laterOld laterNew := by
  simp only [laterOld, laterNew, Fields.ofList, Groups.ofList, Spec.Later, Spec.LaterAll, Spec.LaterSome,
    Spec.LaterGroups, Spec.LaterMore]
  exact ⟨_, _, _, rfl, ⟨_, _, rfl, ⟨_, rfl, .inl trivial⟩, _, _, rfl,
      ⟨_, rfl, _, _, _, rfl, ⟨_, _, rfl, rfl, rfl⟩, .inl ⟨trivial, trivial⟩⟩, rfl⟩,
    ⟨_, _, rfl, ⟨_, _, _, rfl, ⟨_, _, rfl, rfl, rfl⟩, .inr ⟨⟨_, _, rfl, rfl, rfl⟩, trivial⟩⟩, rfl⟩, rfl⟩

example :
    let v : Val := .seq [some (.enum 0), some (.seqOf [.choice 0 (.bool true)]), some (.choice 1 (.bool true))]
    let w : Val := .seq [some (.enum 0), some (.seqOf [.choice 1 (.enum 1)]), none]
    Spec.defaultsKnown laterOld = true ∧ Spec.known laterOld v = true ∧ Spec.known laterOld w = false ∧
    (encode laterNew v).isOk = true ∧
    (encode laterNew v).bind (decode laterOld) = .ok v ∧
    (encode laterNew w).bind (decode laterNew) = .ok w ∧
    ((encode laterNew w).bind (decode laterOld)).isOk = false := by
  refine ⟨?_, ?_, ?_, ?_, ?_, ?_, ?_⟩ <;> decide +kernel

end Verif.Props
