import Verif.Lemmas.Anonymous
import Verif.Props.Versions
/-!
# C63: names only identify components
-/
namespace Verif.Props
open Verif

/-- Where names are distinct, the encoder, which looks components and alternatives up by their names, does what the encoder
that looks them up by their positions does. -/
theorem C63_encode {t : Ty} (h : Spec.wellNamed t = true) (v : Val) : Named.encode t v = encode t v := by
  unfold Named.encode encode
  rw [Named.enc_named t h]

theorem decode_same {m : Ty → Dec Val} {t t' : Ty} {m' : Ty → Dec Val} (h : Named.Same (m t) (m' t')) (bs : List UInt8)
    (w : Val) :
    ((do
      let p ← PerBytes.init (hexlify bs)
      let r ← m t p
      match r.1 with
      | .choice i v => if equalsEmpty v then .error .typeError else return .choice i v
      | v => return v) : Except Err Val) = .ok w ↔
    ((do
      let p ← PerBytes.init (hexlify bs)
      let r ← m' t' p
      match r.1 with
      | .choice i v => if equalsEmpty v then .error .typeError else return .choice i v
      | v => return v) : Except Err Val) = .ok w := by
  cases hi : PerBytes.init (hexlify bs) with
  | error e => exact Iff.rfl
  | ok p =>
    show (m t p >>= _) = _ ↔ (m' t' p >>= _) = _
    constructor <;> intro e
    · obtain ⟨r, e1, e2⟩ := Except.bind_eq_ok e
      rw [(Named.same_iff.1 h p r.1 r.2).1 e1]; exact e2
    · obtain ⟨r, e1, e2⟩ := Except.bind_eq_ok e
      rw [(Named.same_iff.1 h p r.1 r.2).2 e1]; exact e2

/-- So does the decoder, which stores components under their names: it returns the same values for the same octets. -/
theorem C63_decode {t : Ty} (h : Spec.wellNamed t = true) (bs : List UInt8) (w : Val) :
    Named.decode t bs = .ok w ↔ decode t bs = .ok w :=
  decode_same (m := Named.decTy) (m' := decTy) (Named.dec_named t h) bs w

/-- Names are not part of the encoding: types that differ in names only have the same messages. -/
theorem C63_renaming {t t' : Ty} (h : Spec.wellNamed t = true) (h' : Spec.wellNamed t' = true)
    (e : Spec.anonymous t = Spec.anonymous t') :
    (∀ v, Named.encode t v = Named.encode t' v) ∧
      (∀ bs w, Named.decode t bs = .ok w ↔ Named.decode t' bs = .ok w) := by
  constructor
  · intro v
    rw [C63_encode h, C63_encode h']
    exact encode_congr (by rw [← enc_anon t, e, enc_anon t'])
  · intro bs w
    rw [C63_decode h, C63_decode h']
    exact decode_same (m := decTy) (m' := decTy) (Named.Same.of_eq (by rw [← dec_anon t, e, dec_anon t'])) bs w

/-! ## A name that occurs twice -/

theorem position_twice {names : List String} (h : ¬ names.Nodup) (n : String) :
    Named.position names n = .error .noValue := by
  unfold Named.position; rw [if_neg h]

theorem groups_raise {look : String → Except Err Named.Comp} {e : Err} (hn : ∀ n, look n = .error e) :
    ∀ (g : Groups) (p : Option (List Prev)), g.names ≠ [] → ∃ e, Named.encGroups look g p = .error e
  | .nil, _, h => (h rfl).elim
  | .cons (.cons _ _ _ _) _, _, _ => by rw [Named.encGroups, Named.scanGroup, hn]; exact ⟨_, rfl⟩
  | .cons .nil g, _, h => by
    obtain ⟨e', he⟩ := groups_raise hn g (some []) (by simpa [Groups.names, Fields.names] using h)
    rw [Named.encGroups, Named.scanGroup]
    show ∃ e, (Named.encGroups look g (some []) >>= fun _ => _) = _
    rw [he]; exact ⟨_, rfl⟩

/-- A SEQUENCE in which a name occurs twice cannot be encoded, whatever it holds. -/
theorem C63_twice_encode {ext : Bool} {r a : Fields} {g : Groups} (h : ¬ (r.names ++ a.names ++ g.names).Nodup)
    (hx : ext = true ∨ a = .nil ∧ g = .nil) (v : Val) : ∃ e, Named.encode (.sequence ext r a g) v = .error e := by
  have key : ∃ e, Named.encTy (.sequence ext r a g) v = .error e := by
    cases v with
    | seq cs =>
      rw [Named.encTy]
      generalize hl : Named.byName (r.names ++ a.names ++ g.names) (Named.kinds r ++ Named.kinds a ++ Named.kindsG g)
        (fun i v => if i < r.length then Named.encAlt r i v
          else if i < r.length + a.length then Named.encAlt a (i - r.length) v
          else Named.encAltG g (i - (r.length + a.length)) v) cs = look
      have hn : ∀ n, look n = .error .noValue := fun n => by
        rw [← hl, Named.byName, position_twice h]; rfl
      cases r with
      | cons n k t r => rw [Named.encRoot, hn]; exact ⟨_, rfl⟩
      | nil =>
        have hne : a.names ++ g.names ≠ [] := by
          intro e
          apply h
          rw [List.append_assoc, e]
          exact List.nodup_nil
        have hext : ext = true := by
          rcases hx with hx | ⟨rfl, rfl⟩
          · exact hx
          · exact (hne rfl).elim
        subst hext
        show ∃ e, (if a.length = 0 ∧ g.length = 0 then _ else (Named.encAdds look a none >>= fun _ => _)) = _
        have hz : ¬ (a.length = 0 ∧ g.length = 0) := by
          rintro ⟨z1, z2⟩
          apply hne
          cases a with
          | cons => simp [Fields.length] at z1
          | nil =>
            cases g with
            | cons => simp [Groups.length] at z2
            | nil => rfl
        rw [if_neg hz]
        cases a with
        | cons n k t r => rw [Named.encAdds, hn]; exact ⟨_, rfl⟩
        | nil =>
          rw [Named.encAdds]
          obtain ⟨e, he⟩ := groups_raise hn g none (by simpa [Fields.names] using hne)
          show ∃ e, (Named.encGroups look g none >>= fun _ => _) = _
          rw [he]; exact ⟨_, rfl⟩
    | _ => exact ⟨.typeError, by simp [Named.encTy]⟩
  obtain ⟨e, he⟩ := key
  exact ⟨e, by unfold Named.encode; rw [he]; rfl⟩

theorem root_unset {σ : Type} {look : String → Except Err (Dec Val)} {put : String → Val → σ → Except Err σ} {e : Err}
    (h : ∀ n, look n = .error e) : ∀ (f : Fields) (o : Bits) (s : σ), Ensures (Named.decRoot look put f o s) (fun s' => s' = s)
  | .nil, o, s => by unfold Named.decRoot; exact Ensures.pure rfl
  | .cons n k t r, o, s => by
    have some_ : ∀ (x : Dec Val → Dec σ), Ensures (liftE (look n) >>= x) (fun s' => s' = s) := fun x => by
      rw [h n]; exact Ensures.raise _
    have opt_ : ∀ o : Bits, Ensures
        (match o with
          | [] => raise .indexError
          | b :: o => if b then
              (liftE (look n) >>= fun m => m >>= fun v => liftE (put n v s) >>= fun s => Named.decRoot look put r o s)
            else Named.decRoot look put r o s) (fun s' => s' = s) := fun o => by
      cases o with
      | nil => exact Ensures.raise _
      | cons b o =>
        cases b with
        | true => exact some_ _
        | false => exact root_unset h r o s
    unfold Named.decRoot
    cases k with
    | mandatory => exact some_ _
    | optional => exact opt_ o
    | default d => exact opt_ o

theorem adds_unset {σ : Type} {look : String → Except Err (Dec Val)} {put : String → Val → σ → Except Err σ} {e : Err}
    (h : ∀ n, look n = .error e) : ∀ (f : Fields) (o : Bits) (s : σ), Ensures (Named.decAdds look put f o s) (fun s' => s' = s)
  | .nil, o, s => by unfold Named.decAdds; exact Ensures.pure rfl
  | .cons n k t r, o, s => by
    unfold Named.decAdds
    cases o with
    | nil => exact adds_unset h r [] s
    | cons b o =>
      cases b with
      | false => exact adds_unset h r o s
      | true =>
        show Ensures (liftE (look n) >>= fun m => decodeOpenTypeField m >>= fun v => liftE (put n v s) >>= fun s =>
          Named.decAdds look put r o s) _
        rw [h n]; exact Ensures.raise _

theorem groups_unset {σ : Type} {reader : Nat → Dec Val} {put : String → Val → σ → Except Err σ}
    (h : ∀ n v s, ∃ e, put n v s = .error e) : ∀ (g : Groups) (b : Bits) (o : Nat) (s : σ),
    Ensures (Named.decGroups reader put g b o s) (fun s' => s' = s)
  | .nil, b, o, s => by unfold Named.decGroups; exact Ensures.pure rfl
  | .cons f g, b, o, s => by
    unfold Named.decGroups
    cases b with
    | nil => exact groups_unset h g [] _ s
    | cons b bs =>
      cases b with
      | false => exact groups_unset h g bs _ s
      | true =>
        refine Ensures.bind' fun d => ?_
        cases d with
        | nil => exact groups_unset h g bs _ s
        | cons p d =>
          obtain ⟨n, v⟩ := p
          rw [Named.putAll]
          obtain ⟨e, he⟩ := h n v s
          rw [he]; exact Ensures.raise _

/-- If a message is decoded as such a SEQUENCE at all, no component is there. -/
theorem C63_twice_decode {ext : Bool} {r a : Fields} {g : Groups} (h : ¬ (r.names ++ a.names ++ g.names).Nodup)
    {bs : List UInt8} {w : Val} (hd : Named.decode (.sequence ext r a g) bs = .ok w) :
    w = .seq (List.replicate (r.length + a.length + g.size) none) := by
  have key : Ensures (Named.decTy (.sequence ext r a g))
      (fun w => w = .seq (List.replicate (r.length + a.length + g.size) none)) := by
    rw [Named.decTy]
    generalize hl : (fun n => (Named.position (r.names ++ a.names ++ g.names) n).map fun i =>
        if i < r.length then Named.decAlt r i
        else if i < r.length + a.length then Named.decAlt a (i - r.length)
        else Named.decAltG g (i - (r.length + a.length))) = look
    have hn : ∀ n, look n = .error .noValue := fun n => by
      rw [← hl]; simp only [position_twice h]; rfl
    have hp : ∀ n v s, ∃ e, Named.put (r.names ++ a.names ++ g.names) n v s = .error e := fun n v s =>
      ⟨.noValue, by unfold Named.put; rw [position_twice h]; rfl⟩
    have body : ∀ e : Nat, Ensures
        (decodeOptionalBits r.optionalCount >>= fun opt =>
          Named.decRoot look (Named.put (r.names ++ a.names ++ g.names)) r opt
            (List.replicate (r.length + a.length + g.size) none) >>= fun cs =>
          if e ≠ 0 then decodeExtensionBits (a.length + g.length) >>= fun bits =>
            Named.decAdds look (Named.put (r.names ++ a.names ++ g.names)) a (bits.take a.length) cs >>= fun cs =>
            Named.decGroups (fun i => Named.decAltG g i) (Named.put (r.names ++ a.names ++ g.names)) g (bits.drop a.length) 0
              cs >>= fun cs => Pure.pure (Val.seq cs)
          else Pure.pure (Val.seq cs))
        (fun w => w = .seq (List.replicate (r.length + a.length + g.size) none)) := by
      intro e
      refine Ensures.bind' fun opt => (root_unset hn r opt _).bind fun cs hc => ?_
      subst hc
      by_cases he : e ≠ 0
      · rw [if_pos he]
        refine Ensures.bind' fun bits => (adds_unset hn a _ _).bind fun cs hc => ?_
        subst hc
        refine (groups_unset hp g _ _ _).bind fun cs hc => ?_
        subst hc
        exact Ensures.pure rfl
      · rw [if_neg he]; exact Ensures.pure rfl
    cases ext with
    | false => exact body 0
    | true => exact Ensures.bind' body
  unfold Named.decode at hd
  obtain ⟨p, _, hd⟩ := Except.bind_eq_ok hd
  obtain ⟨x, h1, hd⟩ := Except.bind_eq_ok hd
  have := key.run _ _ _ h1
  rw [this] at hd
  cases hd; rfl

/-- No message is decoded as a CHOICE in which a name occurs twice. -/
theorem C63_twice_choice {ext : Bool} {r a : Fields} {g : Groups} (h : ¬ (r.names ++ a.names ++ g.names).Nodup)
    (bs : List UInt8) : ∃ e, Named.decode (.choice ext r a g) bs = .error e := by
  have never : ∀ xs i m, Ensures (Named.choose (r.names ++ a.names ++ g.names) xs i m) (fun _ => False) := by
    intro xs i m
    unfold Named.choose
    cases xs[i]? with
    | none => exact Ensures.raise _
    | some n => simp only [position_twice h]; exact Ensures.raise _
  have key : Ensures (Named.decTy (.choice ext r a g)) (fun _ => False) := by
    have roots : Ensures
        (if r.length = 1 then Named.choose (r.names ++ a.names ++ g.names) r.names 0 (Named.decAlt r 0)
        else decodeConstrainedFromFieldList (some 0) (some ((r.length : Int) - 1)) >>= fun i =>
          Named.choose (r.names ++ a.names ++ g.names) r.names i.toNat (Named.decAlt r i.toNat)) (fun _ => False) := by
      split
      · exact never _ _ _
      · exact Ensures.bind' fun i => never _ _ _
    rw [Named.decTy]
    cases ext with
    | false => exact roots
    | true =>
      refine Ensures.bind' fun e => ?_
      by_cases he : e = 0
      · subst he; exact roots
      · simp only [if_neg he]
        refine Ensures.bind' fun i => ?_
        split
        · exact Ensures.raise _
        · exact never _ _ _
  cases hd : Named.decode (.choice ext r a g) bs with
  | error e => exact ⟨e, rfl⟩
  | ok w =>
    unfold Named.decode at hd
    obtain ⟨p, _, hd⟩ := Except.bind_eq_ok hd
    obtain ⟨x, h1, hd⟩ := Except.bind_eq_ok hd
    exact (key.run _ _ _ h1).elim

/-! ## Examples -/

def namedSample (x y z : String) : Ty :=
  .sequence true (Fields.ofList [(x, .optional, .boolean),
      (y, .mandatory, .choice true (Fields.ofList [("a", .mandatory, .boolean), ("b", .mandatory, .boolean)])
        (Fields.ofList [(z, .mandatory, .integer (.valueRange (some 0) (some 7) false))]) .nil)])
    (Fields.ofList [(z, .optional, .boolean)])
    (Groups.ofList [[("p", .mandatory, .boolean), ("q", .optional, .boolean)]])

/-- Distinct names, a value with additions and a group, and the same with other names. -/
example :
    let v : Val := .seq [some (.bool true), some (.choice 2 (.int 5)), some (.bool false), some (.bool true), none]
    Spec.wellNamed (namedSample "x" "y" "z") = true ∧ Spec.wellNamed (namedSample "r" "s" "t") = true ∧
    (Named.encode (namedSample "x" "y" "z") v).isOk = true ∧
    (Named.encode (namedSample "x" "y" "z") v).bind (Named.decode (namedSample "r" "s" "t")) = .ok v := by
  refine ⟨?_, ?_, ?_, ?_⟩ <;> decide +kernel
example : Spec.anonymous (namedSample "x" "y" "z") = Spec.anonymous (namedSample "r" "s" "t") := rfl

/-- A name that occurs twice, once in the root and once in the additions. -/
example : ¬ ((Fields.ofList [("x", .optional, .boolean)]).names ++
    (Fields.ofList [("x", .optional, .boolean)]).names ++ Groups.nil.names).Nodup := by decide +kernel
example : Named.decode (.sequence true (Fields.ofList [("x", .optional, .boolean)])
    (Fields.ofList [("x", .optional, .boolean)]) .nil) [0x00] = .ok (.seq [none, none]) := by decide +kernel

end Verif.Props
