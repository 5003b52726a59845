import Verif.Lemmas.Forwarded
import Verif.Props.Schema
import Verif.Props.Shared
/-!
# What objects hold after messages are received and parts are assigned (C69)
-/
namespace Verif.Props
open Verif Spec Shared

/-- Whatever objects a program has, the object it receives holds the value that was decoded, and all objects have parts of the
right types. -/
theorem C69_received {h : Store} {t : Ty} {bs : List UInt8} {v : Val} (w : Typed h) (d : decode t bs = .ok v) :
    ∃ y h', receive t bs h = (.ok y, h') ∧ Typed h' ∧ Holds h' t v y := by
  have b := built (Q := False) t v h (fun f => f.elim) (C15_conforms_partial d) (typedBy_all.mpr w)
  exact ⟨_, _, by simp only [receive, d], typedBy_all.mp b.ext.typed, b.isA, b.tree⟩

/-- If `decode` raises, there is no new object. -/
theorem C69_raised {h : Store} {t : Ty} {bs : List UInt8} {e : Err} (d : decode t bs = .error e) :
    receive t bs h = (.error e, h) := by simp only [receive, d]

/-- All other objects stay as they are, and the received one shares no part with them: whatever becomes of them, it holds what
it holds. -/
theorem C69_apart {h h' : Store} {t : Ty} {bs : List UInt8} {v : Val} {y : Nat} (w : Typed h)
    (d : decode t bs = .ok v) (r : receive t bs h = (.ok y, h')) :
    (∀ x, x < h.length → h'[x]? = h[x]?) ∧ h.length ≤ y ∧ ∀ h'', SameFrom h.length h' h'' → Holds h'' t v y := by
  have b := built (Q := False) t v h (fun f => f.elim) (C15_conforms_partial d) (typedBy_all.mpr w)
  simp only [receive, d, Prod.mk.injEq, Except.ok.injEq] at r
  obtain ⟨rfl, rfl⟩ := r
  refine ⟨fun x lx => ?_, b.new, fun h'' s => ⟨?_, ?_⟩⟩
  · obtain ⟨e, q⟩ := b.ext.more
    rw [q, List.getElem?_append_left lx]
  · have i := b.isA
    simp only [IsA] at i ⊢
    rw [s _ b.new]
    exact i
  · rw [← b.tree]
    exact (tree_beyond b.ext.fresh (fun z lz => by simp only [bodyAt, s z lz]) t _ b.new).symm

/-- What the other objects hold stays the same. -/
theorem C69_others {h h' : Store} {t u : Ty} {bs : List UInt8} {v : Val} {z : Nat} {o : Except Err Nat} (w : Typed h)
    (r : receive t bs h = (o, h')) (hz : Holds h u v z) : Holds h' u v z := by
  cases d : decode t bs with
  | error e =>
    rw [C69_raised d] at r
    cases r
    exact hz
  | ok v' =>
    have b := built (Q := False) t v' h (fun f => f.elim) (C15_conforms_partial d) (typedBy_all.mpr w)
    simp only [receive, d, Prod.mk.injEq] at r
    obtain ⟨-, rfl⟩ := r
    exact ⟨b.ext.isA hz.1, by rw [b.ext.tree (typedBy_all.mpr w) hz.1]; exact hz.2⟩

/-- Parts of an object that holds a value hold the parts of the value. -/
theorem C69_component {e : Bool} {r a : Fields} {g : Groups} {cs : List (Option Val)} {h : Store} {x i : Nat} {k : Kind} {t : Ty}
    {v : Val} (w : Typed h) (o : Holds h (.sequence e r a g) (.seq cs) x) (p : partAt r a g i = some (k, t))
    (c : cs[i]? = some (some v)) : ∃ s y, h[x]? = some ⟨.sequence e r a g, .seq (some s)⟩ ∧ place s i = some y ∧ Holds h t v y :=
  holds_component w o p c

theorem C69_element {c : SizeC} {t : Ty} {vs : List Val} {h : Store} {x i : Nat} {v : Val} (w : Typed h)
    (o : Holds h (.seqOf c t) (.seqOf vs) x) (m : vs[i]? = some v) :
    ∃ es y, h[x]? = some ⟨.seqOf c t, .list (some es)⟩ ∧ es[i]? = some y ∧ Holds h t v y :=
  holds_element w o m

theorem C69_alternative {e : Bool} {r a : Fields} {g : Groups} {h : Store} {x pos : Nat} {k : Kind} {t : Ty}
    {v : Val} (w : Typed h) (o : Holds h (.choice e r a g) (.choice pos v) x) (p : partAt r a g pos = some (k, t)) :
    ∃ y, h[x]? = some ⟨.choice e r a g, .choice (some (pos, y))⟩ ∧ Holds h t v y :=
  holds_alternative w o p

/-- Assigning an object that holds a value gives an object that holds the value with it. -/
theorem C69_assigned {h : Store} {t : Ty} {v : Val} {y : Nat} (w : Typed h) (oy : Holds h t v y) :
    (∀ e r a g cs x i k, Holds h (.sequence e r a g) (.seq cs) x → cs.length = r.length + a.length + g.size →
      partAt r a g i = some (k, t) →
      Holds (Deed.assigned h (.set x i y)) (.sequence e r a g) (.seq (cs.set i (some v))) x) ∧
    (∀ c vs x, Holds h (.seqOf c t) (.seqOf vs) x →
      Holds (Deed.assigned h (.append x y)) (.seqOf c t) (.seqOf (vs ++ [v])) x) ∧
    (∀ e r a g x pos k, IsA h (.choice e r a g) x → partAt r a g pos = some (k, t) →
      Holds (Deed.assigned h (.choose x pos y)) (.choice e r a g) (.choice pos v) x) :=
  ⟨fun _ _ _ _ _ _ _ _ o l p => holds_set w o l p oy, fun _ _ _ o => holds_append w o oy,
    fun _ _ _ _ _ _ _ i p => holds_choose w i p oy⟩

/-- After it, all objects have parts of the right types again. -/
theorem C69_typed {h : Store} {d : Deed} (w : Typed h) (al : Allowed h d) : Typed (d.assigned h) := typed_assigned w d al

/-- What an object holds depends on nothing but the objects it contains. -/
theorem C69_depends {h h' : Store} {t : Ty} {v : Val} {z : Nat} (w : Typed h) (o : Holds h t v z)
    (ag : ∀ y, Within h z y → h'[y]? = h[y]?) : Holds h' t v z := by
  refine ⟨?_, by rw [tree_apart w t z o.1 ag]; exact o.2⟩
  have i := o.1
  simp only [IsA] at i ⊢
  rw [ag z (.self z)]
  exact i

/-- An assignment has no effect on objects that do not contain the one that is assigned to; in particular not on the one that
is assigned. -/
theorem C69_elsewhere {h : Store} {d : Deed} {t : Ty} {v : Val} {z : Nat} (w : Typed h) (o : Holds h t v z)
    (n : ∀ x, target d = some x → ¬ Within h z x) : Holds (d.assigned h) t v z :=
  C69_depends w o fun _ c => assigned_other h d fun e => n _ e c

/-! ## Examples -/

/-- A SEQUENCE with a DEFAULT that is a SEQUENCE. -/
def heldType : Ty :=
  .sequence true (.cons "a" .optional lookInner (.cons "b" (.default (.seq [some (.bool true), none])) lookInner .nil)) .nil .nil

def heldVal : Val := .seq [some (.seq [some (.bool true), some (.bool false)]), none]

example : light heldType = false := rfl

example : decode heldType [0x58] = .ok heldVal ∧ decode heldType [] = .error .valueError := by
  refine ⟨?_, ?_⟩ <;> decide +kernel

example : Typed sharedStore := fun x c e => (sharedStore_typed x c e).2

/-- The objects after it was received: the part at 8, the outer one at 9. -/
def heldStore : Store := (receive heldType [0x58] sharedStore).2

theorem heldStore_holds : Typed heldStore ∧ Holds heldStore heldType heldVal 9 := by
  obtain ⟨y, h', e, w, o⟩ := C69_received (bs := [0x58]) (v := heldVal) (t := heldType)
    (fun x c e => (sharedStore_typed x c e).2) (by decide +kernel)
  have : heldStore = h' := by rw [heldStore, e]
  rw [this]
  have y9 : (receive heldType [0x58] sharedStore).1 = .ok 9 := by decide +kernel
  rw [e] at y9
  cases y9
  exact ⟨w, o⟩

/-- The received part does not contain the SEQUENCE OF at 2. -/
example : ¬ Within heldStore 8 2 := by
  intro c
  cases c with
  | element e => cases e
  | alternative e => cases e
  | component e p c =>
    cases e
    rename_i i
    match i, p with
    | 0, p => cases p; cases c with
      | element e => cases e
      | alternative e => cases e
      | component e => cases e
    | 1, p => cases p; cases c with
      | element e => cases e
      | alternative e => cases e
      | component e => cases e

/-- The part is put into the SEQUENCE OF at 2, and into the other component of the received object. -/
example : Allowed heldStore (.append 2 8) ∧ Allowed heldStore (.set 9 1 8) :=
  ⟨⟨_, lookInner, rfl, rfl⟩, ⟨_, _, _, _, _, lookInner, rfl, rfl, rfl⟩⟩

example : Holds (Deed.assigned heldStore (.set 9 1 8)) heldType
    (.seq [some (.seq [some (.bool true), some (.bool false)]), some (.seq [some (.bool true), some (.bool false)])]) 9 :=
  (C69_assigned (t := lookInner) (v := .seq [some (.bool true), some (.bool false)]) (y := 8) heldStore_holds.1 ⟨rfl, rfl⟩).1
    _ _ _ _ _ 9 1 _ heldStore_holds.2 rfl rfl

end Verif.Props
