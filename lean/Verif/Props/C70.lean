import Verif.Model.Streams

/-!
# C70: An ID is the hash of exactly the bytes that went through

However the bytes come in pieces, whatever fails or is interrupted, and whatever the caller does.
-/

namespace Backpak.C70

open Streams

variable {Id S α : Type}

/-! ## What to say -/

/-- The pieces that reads of this caller give, in order. -/
def delivered (r : Reader S) : ReadProg α → S → List Bytes
  | .ret _, _ => []
  | .read buf k, s =>
    (match (r.read s buf).1 with
      | .ok n => [(r.read s buf).2.1.take n]
      | .error _ => []) ++ delivered r (k (r.read s buf).1 (r.read s buf).2.1) (r.read s buf).2.2

/-- The pieces of what this caller writes that are taken, in order. -/
def accepted (w : Writer S) : WriteProg α → S → List Bytes
  | .ret _, _ => []
  | .write buf k, s =>
    (match (w.write s buf).1 with
      | .ok n => [buf.take n]
      | .error _ => []) ++ accepted w (k (w.write s buf).1) (w.write s buf).2
  | .flush k, s => accepted w (k (w.flush s).1) (w.flush s).2

/-- A reader of something: `left` is what it has still to give. It gives a beginning of that, and says it has come
to the end only when it has. -/
structure Gives (r : Reader S) (left : S → Bytes) : Prop where
  ok : ∀ s buf n buf' s', r.read s buf = (.ok n, buf', s') → left s = buf'.take n ++ left s'
  err : ∀ s buf e buf' s', r.read s buf = (.error e, buf', s') → left s' = left s
  eof : ∀ s buf buf' s', buf ≠ [] → r.read s buf = (.ok 0, buf', s') → left s = []

/-- A writer to something: `has` is what is in it. -/
structure Keeps (w : Writer S) (has : S → Bytes) : Prop where
  ok : ∀ s buf n s', w.write s buf = (.ok n, s') → has s' = has s ++ buf.take n
  err : ∀ s buf e s', w.write s buf = (.error e, s') → has s' = has s

/-! ## Any caller -/

theorem run_tap {H : Type} (r : Reader S) (see : H → Bytes → H) (p : ReadProg α) :
    ∀ s h, p.run (r.tap see) (s, h) = ((p.run r s).1, ((p.run r s).2, (delivered r p s).foldl see h)) := by
  induction p with
  | ret a => intro s h; rfl
  | read buf k ih =>
    intro s h
    rcases hr : r.read s buf with ⟨(e | n), b, t⟩ <;>
    · simp only [ReadProg.run, delivered, hr, Reader.tap]
      exact ih _ _ _ _

theorem run_wtap {H : Type} (w : Writer S) (see : H → Bytes → H) (p : WriteProg α) :
    ∀ s h, p.run (w.tap see) (s, h) = ((p.run w s).1, ((p.run w s).2, (accepted w p s).foldl see h)) := by
  induction p with
  | ret a => intro s h; rfl
  | write buf k ih =>
    intro s h
    rcases hr : w.write s buf with ⟨(e | n), t⟩ <;>
    · simp only [WriteProg.run, accepted, hr, Writer.tap]
      exact ih _ _ _
  | flush k ih => intro s h; exact ih _ _ _

/-- Reading through a hashing reader is reading, and the ID is the hash of what was given. -/
theorem reader (D : Hasher Id) (r : Reader S) (p : ReadProg α) (s : S) :
    (p.run (hashingReader D r) (hashingNew D s)).1 = (p.run r s).1 ∧
    hashingFinalize D (p.run (hashingReader D r) (hashingNew D s)).2 =
      (D.hash (delivered r p s).flatten, (p.run r s).2) := by
  unfold hashingReader hashingNew hashingFinalize
  rw [run_tap]
  exact ⟨rfl, by simp only [D.digest]⟩

/-- Writing through a hashing writer is writing, and the ID is the hash of what was taken. -/
theorem writer (D : Hasher Id) (w : Writer S) (p : WriteProg α) (s : S) :
    (p.run (hashingWriter D w) (hashingNew D s)).1 = (p.run w s).1 ∧
    hashingFinalize D (p.run (hashingWriter D w) (hashingNew D s)).2 =
      (D.hash (accepted w p s).flatten, (p.run w s).2) := by
  unfold hashingWriter hashingNew hashingFinalize
  rw [run_wtap]
  exact ⟨rfl, by simp only [D.digest]⟩

theorem delivered_left {r : Reader S} {left : S → Bytes} (hG : Gives r left) (p : ReadProg α) :
    ∀ s, left s = (delivered r p s).flatten ++ left (p.run r s).2 := by
  induction p with
  | ret a => intro s; rfl
  | read buf k ih =>
    intro s
    rcases hr : r.read s buf with ⟨(e | n), b, t⟩
    · simp only [ReadProg.run, delivered, hr, List.nil_append]
      rw [← ih, hG.err _ _ _ _ _ hr]
    · simp only [ReadProg.run, delivered, hr, List.flatten_append, List.flatten_cons, List.flatten_nil,
        List.append_nil, List.append_assoc]
      rw [← ih, ← hG.ok _ _ _ _ _ hr]

/-- Of an object: the ID is the hash of the part of it that was read, which is its beginning. In particular a caller
that stops early (as reading CBOR does) says nothing about the rest. -/
theorem reads_beginning (D : Hasher Id) {r : Reader S} {left : S → Bytes} (hG : Gives r left) (p : ReadProg α) (s : S) :
    ∃ pre, (hashingFinalize D (p.run (hashingReader D r) (hashingNew D s)).2).1 = D.hash pre ∧
      left s = pre ++ left (p.run r s).2 :=
  ⟨_, congrArg Prod.fst (reader D r p s).2, delivered_left hG p s⟩

theorem accepted_has {w : Writer S} {has : S → Bytes} (hK : Keeps w has) (hF : ∀ s, has (w.flush s).2 = has s)
    (p : WriteProg α) : ∀ s, has (p.run w s).2 = has s ++ (accepted w p s).flatten := by
  induction p with
  | ret a => intro s; exact (List.append_nil _).symm
  | write buf k ih =>
    intro s
    rcases hr : w.write s buf with ⟨(e | n), t⟩
    · simp only [WriteProg.run, accepted, hr, List.nil_append]
      rw [ih, hK.err _ _ _ _ hr]
    · simp only [WriteProg.run, accepted, hr, List.flatten_append, List.flatten_cons, List.flatten_nil,
        List.append_nil]
      rw [ih, hK.ok _ _ _ _ hr, List.append_assoc]
  | flush k ih =>
    intro s
    simp only [WriteProg.run, accepted]
    rw [ih, hF]

/-- Of a file: the ID is the hash of what was added to it, even if some of the writing failed. -/
theorem writes_added (D : Hasher Id) {w : Writer S} {has : S → Bytes} (hK : Keeps w has)
    (hF : ∀ s, has (w.flush s).2 = has s) (p : WriteProg α) (s : S) :
    ∃ new, (hashingFinalize D (p.run (hashingWriter D w) (hashingNew D s)).2).1 = D.hash new ∧
      has (p.run w s).2 = has s ++ new :=
  ⟨_, congrArg Prod.fst (writer D w p s).2, accepted_has hK hF p s⟩

/-! ## The standard library's callers -/

theorem toEnd_tap {H : Type} (r : Reader S) (see : H → Bytes → H) {x : S × H} {out : Bytes} {res : Except IoErr Unit}
    {y : S × H} (h : ToEnd (r.tap see) x out res y) :
    ToEnd r x.1 out res y.1 ∧ ∃ l : List Bytes, l.flatten = out ∧ y.2 = l.foldl see x.2 := by
  induction h with
  | eof s buf buf' s' hb e =>
    obtain ⟨s, h⟩ := s; obtain ⟨s', h'⟩ := s'
    rcases hr : r.read s buf with ⟨(_ | m), b, t⟩
    · simp [Reader.tap, hr] at e
    · simp only [Reader.tap, hr, Prod.mk.injEq, Except.ok.injEq] at e
      obtain ⟨rfl, rfl, rfl, rfl⟩ := e
      exact ⟨.eof _ _ _ _ hb hr, [b.take 0], by simp, rfl⟩
  | more s buf n buf' s' out res t e hn _ ih =>
    obtain ⟨s, h⟩ := s; obtain ⟨s', h'⟩ := s'
    rcases hr : r.read s buf with ⟨(_ | m), b, u⟩
    · simp [Reader.tap, hr] at e
    · simp only [Reader.tap, hr, Prod.mk.injEq, Except.ok.injEq] at e
      obtain ⟨rfl, rfl, rfl, rfl⟩ := e
      obtain ⟨h1, l, h2, h3⟩ := ih
      exact ⟨.more _ _ _ _ _ _ _ _ hr hn h1, b.take m :: l, by simp [h2], h3⟩
  | again s buf buf' s' out res t e _ ih =>
    obtain ⟨s, h⟩ := s; obtain ⟨s', h'⟩ := s'
    rcases hr : r.read s buf with ⟨(_ | m), b, u⟩
    · simp only [Reader.tap, hr, Prod.mk.injEq, Except.error.injEq] at e
      obtain ⟨rfl, rfl, rfl, rfl⟩ := e
      obtain ⟨h1, l, h2, h3⟩ := ih
      exact ⟨.again _ _ _ _ _ _ _ hr h1, l, h2, h3⟩
    · simp [Reader.tap, hr] at e
  | fail s buf e' buf' s' e he =>
    obtain ⟨s, h⟩ := s; obtain ⟨s', h'⟩ := s'
    rcases hr : r.read s buf with ⟨(_ | m), b, u⟩
    · simp only [Reader.tap, hr, Prod.mk.injEq, Except.error.injEq] at e
      obtain ⟨rfl, rfl, rfl, rfl⟩ := e
      exact ⟨.fail _ _ _ _ _ hr he, [], rfl, rfl⟩
    · simp [Reader.tap, hr] at e

/-- Whatever can be read without the wrapper can be read with it. -/
theorem toEnd_lift {H : Type} (r : Reader S) (see : H → Bytes → H) {s : S} {out : Bytes} {res : Except IoErr Unit}
    {t : S} (h : ToEnd r s out res t) : ∀ x : H, ∃ y, ToEnd (r.tap see) (s, x) out res (t, y) := by
  induction h with
  | eof s buf buf' s' hb e => intro x; exact ⟨see x (buf'.take 0), .eof _ buf buf' _ hb (by simp [Reader.tap, e])⟩
  | more s buf n buf' s' out res t e hn _ ih =>
    intro x
    obtain ⟨y, hy⟩ := ih (see x (buf'.take n))
    exact ⟨y, .more _ buf n buf' _ _ _ _ (by simp [Reader.tap, e]) hn hy⟩
  | again s buf buf' s' out res t e _ ih =>
    intro x
    obtain ⟨y, hy⟩ := ih x
    exact ⟨y, .again _ buf buf' _ _ _ _ (by simp [Reader.tap, e]) hy⟩
  | fail s buf e' buf' s' e he => intro x; exact ⟨x, .fail _ buf e' buf' _ (by simp [Reader.tap, e]) he⟩

theorem toEnd_left {r : Reader S} {left : S → Bytes} (hG : Gives r left) {s : S} {out : Bytes}
    {res : Except IoErr Unit} {t : S} (h : ToEnd r s out res t) : left s = out ++ left t ∧ (res = .ok () → left t = []) := by
  induction h with
  | eof s buf buf' s' hb e =>
    have h1 := hG.eof _ _ _ _ hb e
    have h2 := hG.ok _ _ _ _ _ e
    rw [h1] at h2
    have h3 : left s' = [] := (List.append_eq_nil_iff.1 h2.symm).2
    exact ⟨by rw [h1, h3]; rfl, fun _ => h3⟩
  | more s buf n buf' s' out res t e hn _ ih =>
    exact ⟨by rw [hG.ok _ _ _ _ _ e, ih.1, List.append_assoc], ih.2⟩
  | again s buf buf' s' out res t e _ ih => exact ⟨by rw [← hG.err _ _ _ _ _ e, ih.1], ih.2⟩
  | fail s buf e' buf' s' e he => exact ⟨by rw [hG.err _ _ _ _ _ e]; rfl, fun h => by simp at h⟩

/-- Reading to the end through a hashing reader gives what reading to the end gives; the ID is the hash of what was
read, even if reading failed; and if it did not fail that is all there was. -/
theorem read_to_end (D : Hasher Id) {r : Reader S} {left : S → Bytes} (hG : Gives r left) {s : S} {out : Bytes}
    {res : Except IoErr Unit} {t : S × D.State} (h : ToEnd (hashingReader D r) (hashingNew D s) out res t) :
    ToEnd r s out res t.1 ∧ (hashingFinalize D t).1 = D.hash out ∧
      (res = .ok () → (hashingFinalize D t).1 = D.hash (left s)) := by
  obtain ⟨h1, l, h2, h3⟩ := toEnd_tap r D.update h
  have hid : (hashingFinalize D t).1 = D.hash out := by
    show D.finalize t.2 = _
    rw [h3, ← h2]; exact D.digest l
  obtain ⟨h4, h5⟩ := toEnd_left hG h1
  refine ⟨h1, hid, fun hr => ?_⟩
  have h6 := h5 hr
  rw [hid, show left s = out by rw [show left s = out ++ left t.1 from h4, h6, List.append_nil]]

theorem writeAll_tap {H : Type} (w : Writer S) (see : H → Bytes → H) {x : S × H} {buf got : Bytes}
    {res : Except IoErr Unit} {y : S × H} (h : WriteAll (w.tap see) x buf got res y) :
    WriteAll w x.1 buf got res y.1 ∧ ∃ l : List Bytes, l.flatten = got ∧ y.2 = l.foldl see x.2 := by
  induction h with
  | done s => exact ⟨.done _, [], rfl, rfl⟩
  | zero s buf s' hb e =>
    obtain ⟨s, h⟩ := s; obtain ⟨s', h'⟩ := s'
    rcases hr : w.write s buf with ⟨(_ | m), t⟩
    · simp [Writer.tap, hr] at e
    · simp only [Writer.tap, hr, Prod.mk.injEq, Except.ok.injEq] at e
      obtain ⟨rfl, rfl, rfl⟩ := e
      exact ⟨.zero _ _ _ hb hr, [buf.take 0], by simp, rfl⟩
  | some s buf n s' got res t hb e hn _ ih =>
    obtain ⟨s, h⟩ := s; obtain ⟨s', h'⟩ := s'
    rcases hr : w.write s buf with ⟨(_ | m), u⟩
    · simp [Writer.tap, hr] at e
    · simp only [Writer.tap, hr, Prod.mk.injEq, Except.ok.injEq] at e
      obtain ⟨rfl, rfl, rfl⟩ := e
      obtain ⟨h1, l, h2, h3⟩ := ih
      exact ⟨.some _ _ _ _ _ _ _ hb hr hn h1, buf.take m :: l, by simp [h2], h3⟩
  | again s buf s' got res t hb e _ ih =>
    obtain ⟨s, h⟩ := s; obtain ⟨s', h'⟩ := s'
    rcases hr : w.write s buf with ⟨(_ | m), u⟩
    · simp only [Writer.tap, hr, Prod.mk.injEq, Except.error.injEq] at e
      obtain ⟨rfl, rfl, rfl⟩ := e
      obtain ⟨h1, l, h2, h3⟩ := ih
      exact ⟨.again _ _ _ _ _ _ hb hr h1, l, h2, h3⟩
    · simp [Writer.tap, hr] at e
  | fail s buf e' s' hb e he =>
    obtain ⟨s, h⟩ := s; obtain ⟨s', h'⟩ := s'
    rcases hr : w.write s buf with ⟨(_ | m), u⟩
    · simp only [Writer.tap, hr, Prod.mk.injEq, Except.error.injEq] at e
      obtain ⟨rfl, rfl, rfl⟩ := e
      exact ⟨.fail _ _ _ _ hb hr he, [], rfl, rfl⟩
    · simp [Writer.tap, hr] at e

theorem writeEach_tap {H : Type} (w : Writer S) (see : H → Bytes → H) {x : S × H} {bs : List Bytes} {got : Bytes}
    {res : Except IoErr Unit} {y : S × H} (h : WriteEach (w.tap see) x bs got res y) :
    WriteEach w x.1 bs got res y.1 ∧ ∃ l : List Bytes, l.flatten = got ∧ y.2 = l.foldl see x.2 := by
  induction h with
  | nil s => exact ⟨.nil _, [], rfl, rfl⟩
  | cons s b l got s' more res t h1 _ ih =>
    obtain ⟨a1, l1, a2, a3⟩ := writeAll_tap w see h1
    obtain ⟨b1, l2, b2, b3⟩ := ih
    exact ⟨.cons _ _ _ _ _ _ _ _ a1 b1, l1 ++ l2, by simp [a2, b2], by rw [b3, a3, List.foldl_append]⟩
  | fail s b l got e s' h1 =>
    obtain ⟨a1, l1, a2, a3⟩ := writeAll_tap w see h1
    exact ⟨.fail _ _ _ _ _ _ a1, l1, a2, a3⟩

theorem writeAll_got {w : Writer S} {s : S} {buf got : Bytes} {res : Except IoErr Unit} {t : S}
    (h : WriteAll w s buf got res t) : got <+: buf ∧ (res = .ok () → got = buf) := by
  induction h with
  | done => exact ⟨List.prefix_refl _, fun _ => rfl⟩
  | zero => exact ⟨List.nil_prefix, fun h => by simp at h⟩
  | some s buf n s' got res t hb e hn _ ih =>
    obtain ⟨⟨r, hr⟩, h2⟩ := ih
    exact ⟨⟨r, by rw [List.append_assoc, hr, List.take_append_drop]⟩, fun h => by rw [h2 h, List.take_append_drop]⟩
  | again _ _ _ _ _ _ _ _ _ ih => exact ih
  | fail => exact ⟨List.nil_prefix, fun h => by simp at h⟩

theorem writeEach_got {w : Writer S} {s : S} {bs : List Bytes} {got : Bytes} {res : Except IoErr Unit} {t : S}
    (h : WriteEach w s bs got res t) : got <+: bs.flatten ∧ (res = .ok () → got = bs.flatten) := by
  induction h with
  | nil => exact ⟨List.prefix_refl _, fun _ => rfl⟩
  | cons s b l got s' more res t h1 _ ih =>
    have h2 := (writeAll_got h1).2 rfl
    subst h2
    obtain ⟨⟨r, hr⟩, h3⟩ := ih
    exact ⟨⟨r, by rw [List.append_assoc, hr]; rfl⟩, fun h => by rw [h3 h]; rfl⟩
  | fail s b l got e s' h1 =>
    obtain ⟨⟨r, hr⟩, _⟩ := writeAll_got h1
    exact ⟨⟨r ++ l.flatten, by rw [← List.append_assoc, hr]; rfl⟩, fun h => by simp at h⟩

theorem writeAll_has {w : Writer S} {has : S → Bytes} (hK : Keeps w has) {s : S} {buf got : Bytes}
    {res : Except IoErr Unit} {t : S} (h : WriteAll w s buf got res t) : has t = has s ++ got := by
  induction h with
  | done => exact (List.append_nil _).symm
  | zero s buf s' hb e => rw [hK.ok _ _ _ _ e]; simp
  | some s buf n s' got res t hb e hn _ ih => rw [ih, hK.ok _ _ _ _ e, List.append_assoc]
  | again s buf s' got res t hb e _ ih => rw [ih, hK.err _ _ _ _ e]
  | fail s buf e' s' hb e he => rw [hK.err _ _ _ _ e, List.append_nil]

theorem writeEach_has {w : Writer S} {has : S → Bytes} (hK : Keeps w has) {s : S} {bs : List Bytes} {got : Bytes}
    {res : Except IoErr Unit} {t : S} (h : WriteEach w s bs got res t) : has t = has s ++ got := by
  induction h with
  | nil => exact (List.append_nil _).symm
  | cons s b l got s' more res t h1 _ ih => rw [ih, writeAll_has hK h1, List.append_assoc]
  | fail s b l got e s' h1 => exact writeAll_has hK h1

/-- What is written piece by piece through a hashing writer: the ID is the hash of what was added to the file; that is
a beginning of what was to be written; and if nothing failed it is all of it. -/
theorem write_each (D : Hasher Id) {w : Writer S} {has : S → Bytes} (hK : Keeps w has) {s : S} {bs : List Bytes}
    {got : Bytes} {res : Except IoErr Unit} {t : S × D.State}
    (h : WriteEach (hashingWriter D w) (hashingNew D s) bs got res t) :
    (hashingFinalize D t).1 = D.hash got ∧ has t.1 = has s ++ got ∧ got <+: bs.flatten ∧
      (res = .ok () → (hashingFinalize D t).1 = D.hash bs.flatten ∧ has t.1 = has s ++ bs.flatten) := by
  obtain ⟨h1, l, h2, h3⟩ := writeEach_tap w D.update h
  have hid : (hashingFinalize D t).1 = D.hash got := by
    show D.finalize t.2 = _
    rw [h3, ← h2]; exact D.digest l
  have hh : has t.1 = has s ++ got := writeEach_has hK h1
  obtain ⟨h4, h5⟩ := writeEach_got h1
  exact ⟨hid, hh, h4, fun hr => ⟨h5 hr ▸ hid, h5 hr ▸ hh⟩⟩

/-! ## Counting -/

theorem foldl_fetchAdd (l : List Bytes) : ∀ c, c < 2 ^ 64 → l.foldl fetchAdd c = (c + l.flatten.length) % 2 ^ 64 := by
  induction l with
  | nil => intro c hc; exact (Nat.mod_eq_of_lt hc).symm
  | cons b l ih =>
    intro c hc
    rw [List.foldl_cons, ih (fetchAdd c b) (Nat.mod_lt _ (by decide)), List.flatten_cons, List.length_append]
    unfold fetchAdd
    rw [Nat.mod_add_mod, Nat.add_assoc]

/-- Reading through a counter is reading, and the counter goes up by the bytes given. -/
theorem counted_read (r : Reader S) (p : ReadProg α) (s : S) {c : Nat} (hc : c + (delivered r p s).flatten.length < 2 ^ 64) :
    p.run (countRead r) (s, c) = ((p.run r s).1, ((p.run r s).2, c + (delivered r p s).flatten.length)) := by
  unfold countRead
  rw [run_tap, foldl_fetchAdd _ _ (by omega), Nat.mod_eq_of_lt hc]

/-- Writing through a counter is writing, and the counter goes up by the bytes taken. -/
theorem counted_write (w : Writer S) (p : WriteProg α) (s : S) {c : Nat} (hc : c + (accepted w p s).flatten.length < 2 ^ 64) :
    p.run (countWrite w) (s, c) = ((p.run w s).1, ((p.run w s).2, c + (accepted w p s).flatten.length)) := by
  unfold countWrite
  rw [run_wtap, foldl_fetchAdd _ _ (by omega), Nat.mod_eq_of_lt hc]

/-- Sending an object through a counter moves the counter by its length. -/
theorem counted_whole {r : Reader S} {left : S → Bytes} (hG : Gives r left) {s : S} {c : Nat} {out : Bytes} {t : S × Nat}
    (hc : c + (left s).length < 2 ^ 64) (h : ToEnd (countRead r) (s, c) out (.ok ()) t) :
    out = left s ∧ t.2 = c + (left s).length := by
  obtain ⟨h1, l, h2, h3⟩ := toEnd_tap r fetchAdd h
  obtain ⟨h4, h5⟩ := toEnd_left hG h1
  have ho : out = left s := by rw [show left s = out ++ left t.1 from h4, h5 rfl, List.append_nil]
  refine ⟨ho, ?_⟩
  rw [h3, foldl_fetchAdd _ _ (by omega : c < 2 ^ 64), h2, ho, Nat.mod_eq_of_lt hc]

/-! ## Examples -/

/-- A file that gives at most two bytes at a time and is interrupted before each byte `7`. -/
def choppy : Reader (Bytes × Bool) where
  read := fun (x, ready) buf =>
    if x.head? = some 7 ∧ ready = false then (.error .interrupted, buf, (x, true))
    else
      let n := min 2 (min buf.length x.length)
      (.ok n, x.take n ++ buf.drop n, (x.drop n, false))
  fits := by
    rintro ⟨x, ready⟩ buf n buf' ⟨x', r'⟩ e
    dsimp only at e
    split at e
    · simp at e
    · simp only [Prod.mk.injEq, Except.ok.injEq] at e
      obtain ⟨rfl, rfl, _⟩ := e
      simp only [List.length_append, List.length_take, List.length_drop]; omega
  slice := by
    rintro ⟨x, ready⟩ buf n buf' ⟨x', r'⟩ e
    dsimp only at e
    split at e
    · simp only [Prod.mk.injEq] at e; obtain ⟨_, rfl, _⟩ := e; rfl
    · simp only [Prod.mk.injEq] at e
      obtain ⟨_, rfl, _⟩ := e
      simp only [List.length_append, List.length_take, List.length_drop]; omega

theorem choppy_gives : Gives choppy Prod.fst where
  ok := by
    rintro ⟨x, ready⟩ buf n buf' ⟨x', r'⟩ e
    simp only [choppy] at e
    split at e
    · simp at e
    · simp only [Prod.mk.injEq, Except.ok.injEq] at e
      obtain ⟨rfl, rfl, rfl, _⟩ := e
      rw [List.take_append_of_le_length (by simp only [List.length_take]; omega), List.take_take, Nat.min_self,
        List.take_append_drop]
  err := by
    rintro ⟨x, ready⟩ buf n buf' ⟨x', r'⟩ e
    simp only [choppy] at e
    split at e
    · simp only [Prod.mk.injEq] at e; exact e.2.2.1.symm
    · simp at e
  eof := by
    rintro ⟨x, ready⟩ buf buf' ⟨x', r'⟩ hb e
    simp only [choppy] at e
    split at e
    · simp at e
    · simp only [Prod.mk.injEq, Except.ok.injEq] at e
      have : buf.length ≠ 0 := fun h => hb (List.length_eq_zero_iff.1 h)
      exact List.length_eq_zero_iff.1 (show x.length = 0 by omega)

/-- A hash for examples. -/
def sum : Hasher Nat where
  hash b := b.foldl (fun a x => 31 * a + x.toNat) 1
  State := Nat
  new := 1
  update a b := b.foldl (fun a x => 31 * a + x.toNat) a
  finalize := id
  digest l := by
    show List.foldl _ _ l = List.foldl _ _ l.flatten
    generalize (1 : Nat) = a
    induction l generalizing a with
    | nil => rfl
    | cons b l ih => rw [List.foldl_cons, ih, List.flatten_cons, List.foldl_append]

/-- A caller that reads three times into buffers of different sizes. -/
def thrice : ReadProg Bytes :=
  .read [0, 0, 0] fun _ a => .read [0] fun _ b => .read [0, 0, 0, 0] fun _ c => .ret (a ++ b ++ c)

example : (thrice.run (hashingReader sum choppy) (hashingNew sum ([1, 2, 7, 4, 5, 6], false))).1 = [1, 2, 0, 0, 7, 4, 0, 0] ∧
    delivered choppy thrice ([1, 2, 7, 4, 5, 6], false) = [[1, 2], [7, 4]] ∧
    (hashingFinalize sum (thrice.run (hashingReader sum choppy) (hashingNew sum ([1, 2, 7, 4, 5, 6], false))).2).1 =
      sum.hash [1, 2, 7, 4] := by decide +kernel

/-- All of a file, read through both wrappers. -/
example : ∃ t, ToEnd (hashingReader sum choppy) (hashingNew sum ([1, 2, 7], false)) [1, 2, 7] (.ok ()) t ∧
    (hashingFinalize sum t).1 = sum.hash [1, 2, 7] := by
  have h : ToEnd choppy ([1, 2, 7], false) [1, 2, 7] (.ok ()) ([], false) :=
    .more _ [0, 0] 2 [1, 2] ([7], false) [7] _ _ rfl (by decide)
      (.again _ [0, 0] [0, 0] ([7], true) _ _ _ rfl
        (.more _ [0, 0] 1 [7, 0] ([], false) [] _ _ rfl (by decide)
          (.eof _ [0] [0] _ (by decide) rfl)))
  obtain ⟨y, hy⟩ := toEnd_lift choppy sum.update h sum.new
  exact ⟨_, hy, (read_to_end sum choppy_gives hy).2.2 rfl⟩

/-- A file on a disk with room for this many bytes more. -/
def disk : Writer (Bytes × Nat) where
  write := fun (x, room) buf =>
    if room = 0 ∧ buf ≠ [] then (.error (.other 28), (x, 0))
    else (.ok (min room buf.length), (x ++ buf.take (min room buf.length), room - min room buf.length))
  flush s := (.ok (), s)
  fits := by
    rintro ⟨x, room⟩ buf n ⟨x', r'⟩ e
    dsimp only at e
    split at e
    · simp at e
    · simp only [Prod.mk.injEq, Except.ok.injEq] at e; omega

theorem disk_keeps : Keeps disk Prod.fst where
  ok := by
    rintro ⟨x, room⟩ buf n ⟨x', r'⟩ e
    simp only [disk] at e
    split at e
    · simp at e
    · simp only [Prod.mk.injEq, Except.ok.injEq] at e
      obtain ⟨rfl, rfl, _⟩ := e; rfl
  err := by
    rintro ⟨x, room⟩ buf n ⟨x', r'⟩ e
    simp only [disk] at e
    split at e
    · simp only [Prod.mk.injEq] at e; exact e.2.1.symm
    · simp at e

/-- The disk is full half way: the ID is that of what is on it. -/
example : WriteEach (hashingWriter sum disk) (hashingNew sum ([9], 3)) [[1, 2], [3, 4]] [1, 2, 3] (.error (.other 28))
      (([9, 1, 2, 3], 0), sum.hash [1, 2, 3]) :=
  .cons _ _ _ [1, 2] (([9, 1, 2], 1), _) [3] _ _
    (.some _ _ 2 _ [] _ _ (by decide) rfl (by decide) (.done _))
    (.fail _ _ _ _ _ _ (.some _ [3, 4] 1 (([9, 1, 2, 3], 0), _) [] _ _ (by decide) rfl (by decide)
      (.fail _ _ _ _ (by decide) rfl (by decide))))

example : (thrice.run (countRead choppy) (([1, 2, 7, 4, 5, 6], false), 40)).2.2 = 44 := by decide +kernel

end Backpak.C70
