/-
Model of the buffered file under every pack and index file:
`crates/storage/src/archive/data_file.rs` (`DataFile`: `open`, `read`, `write`, `flush`, `seek`,
`set_len`).

Simplifications: bytes are an arbitrary type with a zero; the operating system's file is a list of bytes
and its system calls succeed (an I/O error is an error of the real calls too); the file is open for
writing (the read-only case never buffers writes); sizes do not overflow.
-/
namespace Verif
namespace DataFile

variable {β : Type}

/-- `DataFile`, data_file.rs:50-63. `file`: the operating system's file. `fend`: `data_file_end`.
`rbuf`: the valid bytes of the read buffer (`read_buffer[..read_buffer_len]`). -/
structure DF (β : Type) where
  file : List β
  fend : Nat
  wbuf : List β := []
  rbuf : List β := []
  rstart : Nat := 0
  pos : Nat := 0

/-- `seek` to `start` and `read_exact` of `n` bytes on the operating system's file; `none`: error. -/
def osRead (file : List β) (start n : Nat) : Option (List β) :=
  if start + n ≤ file.length then some ((file.drop start).take n) else none

/-- `DataFile::open` for writing, data_file.rs:67-111. `R` is the size of the read buffer (16 KiB). -/
def open_ (R : Nat) (file : List β) : Option (DF β) :=
  if file.length = 0 then some { file := file, fend := 0 }
  else
    match osRead file 0 (if file.length < R then file.length else R) with
    | none => none
    | some b => some { file := file, fend := file.length, rbuf := b }

/-- `len`, data_file.rs:124-126. -/
def DF.len (d : DF β) : Nat := d.fend + d.wbuf.length

/-- `flush`, data_file.rs:362-369. -/
def DF.flush (d : DF β) : DF β :=
  { d with
      file := d.file ++ d.wbuf,
      fend := d.fend + d.wbuf.length,
      wbuf := [] }

/-- `File::set_len` of the operating system: shortens or zero-extends. -/
def osSetLen (zero : β) (n : Nat) (file : List β) : List β :=
  file.take n ++ List.replicate (n - file.length) zero

/-- The first bytes of the file, re-read into the buffer by `set_len`, data_file.rs:150-163. -/
def DF.reload (R : Nat) (d : DF β) : Option (DF β) :=
  if 0 < d.fend then
    match osRead d.file 0 (if d.fend < R then d.fend else R) with
    | none => none
    | some b => some { d with rbuf := b, rstart := 0 }
  else some { d with rbuf := [], rstart := 0 }

/-- `set_len`, data_file.rs:135-166. -/
def DF.setLen (R : Nat) (zero : β) (d : DF β) (n : Nat) : Option (DF β) :=
  let d := { d.flush with file := osSetLen zero n d.flush.file, fend := n }
  if n < d.rstart + d.rbuf.length then d.reload R else some d

/-- `copy_read_buffer`, data_file.rs:226-242: up to `n` bytes; `none`: the panic on no bytes. -/
def DF.copyOut (d : DF β) (n : Nat) : Option (List β × DF β) :=
  let depth := d.pos - d.rstart
  let size := if d.rbuf.length < depth + n then d.rbuf.length - depth else n
  if size = 0 then none
  else some ((d.rbuf.drop depth).take size, { d with pos := d.pos + size })

/-- The part of `read` that serves bytes from the write buffer, data_file.rs:256-268. -/
def DF.readWbuf (d : DF β) (n : Nat) : List β × DF β :=
  let wp := d.pos - d.fend
  if wp < d.wbuf.length then
    let size := if d.wbuf.length < wp + n then d.wbuf.length - wp else n
    ((d.wbuf.drop wp).take size, { d with pos := d.pos + size })
  else ([], d)

/-- Where the read buffer is filled from, data_file.rs:274-286. -/
def DF.fillAt (R : Nat) (d : DF β) : Nat :=
  if d.fend - d.pos < R then d.fend - R else d.pos - R / 2

/-- The part of `read` that fills the read buffer, data_file.rs:273-303. -/
def DF.readFill (R : Nat) (d : DF β) (n : Nat) : Option (List β × DF β) :=
  if 0 < d.fend - d.fillAt R then
    match osRead d.file (d.fillAt R)
        (if d.fend - d.fillAt R < R then d.fend - d.fillAt R else R) with
    | none => none
    | some b => { d with rbuf := b, rstart := d.fillAt R }.copyOut n
  else some ([], d)

/-- `read` of up to `n` bytes, data_file.rs:250-305. `none`: an I/O error or the panic. -/
def DF.read (R : Nat) (d : DF β) (n : Nat) : Option (List β × DF β) :=
  if n = 0 then some ([], d)
  else if d.fend ≤ d.pos then some (d.readWbuf n)
  else if d.rstart ≤ d.pos ∧ d.pos < d.rstart + d.rbuf.length then d.copyOut n
  else d.readFill R n

/-- `Read::read_exact` (standard library): reads until `n` bytes are there; an empty read is the
end-of-file error (`some (none, _)`). `none`: an I/O error or the panic. -/
def DF.readExact (R : Nat) : Nat → DF β → Nat → List β → Option (Option (List β) × DF β)
  | _, d, 0, acc => some (some acc, d)
  | 0, d, _ + 1, _ => some (none, d)
  | fuel + 1, d, n + 1, acc =>
    match d.read R (n + 1) with
    | none => none
    | some (b, d') =>
      if b.length = 0 then some (none, d')
      else DF.readExact R fuel d' (n + 1 - b.length) (acc ++ b)

/-- The write buffer is written out when it is full, data_file.rs:342-346. -/
def DF.room (W : Nat) (d : DF β) : DF β := if W ≤ d.wbuf.length then d.flush else d

/-- `write` of one slice; the number of bytes taken, data_file.rs:338-360. `W` is the size of the write
buffer (16 KiB). -/
def DF.write (W : Nat) (d : DF β) (b : List β) : Nat × DF β :=
  let d := d.room W
  if b.length < W - d.wbuf.length then (b.length, { d with wbuf := d.wbuf ++ b })
  else
    (W - d.wbuf.length, DF.flush { d with wbuf := d.wbuf ++ b.take (W - d.wbuf.length) })

/-- `Write::write_all` (standard library). -/
def DF.writeAll (W : Nat) : Nat → DF β → List β → DF β
  | _, d, [] => d
  | 0, d, _ :: _ => d
  | fuel + 1, d, x :: xs =>
    DF.writeAll W fuel (d.write W (x :: xs)).2 ((x :: xs).drop (d.write W (x :: xs)).1)

/-- `seek` from the start, data_file.rs:311. -/
def DF.seek (d : DF β) (p : Nat) : DF β := { d with pos := p }

/-- The calls made on the file. -/
inductive Op (β : Type) where
  | write (b : List β)
  | read (n : Nat)
  | seek (p : Nat)
  | flush
  | setLen (n : Nat)

/-- One call; the answer is the bytes of a `read_exact`, `some none` its end-of-file error. -/
def DF.step (R W : Nat) (zero : β) (d : DF β) : Op β → Option (Option (Option (List β)) × DF β)
  | .write b => some (none, d.writeAll W b.length b)
  | .read n => match DF.readExact R n d n [] with
    | none => none
    | some (r, d') => some (some r, d')
  | .seek p => some (none, d.seek p)
  | .flush => some (none, d.flush)
  | .setLen n => match d.setLen R zero n with
    | none => none
    | some d' => some (none, d')

/-- A history of calls and its answers. -/
def DF.run (R W : Nat) (zero : β) (d : DF β) : List (Op β) → Option (List (Option (Option (List β))) × DF β)
  | [] => some ([], d)
  | o :: os => match d.step R W zero o with
    | none => none
    | some (r, d') => match DF.run R W zero d' os with
      | none => none
      | some (rs, d'') => some (r :: rs, d'')

/-! ## Specification: a plain byte array with a cursor -/

/-- Bytes and cursor. -/
structure Arr (β : Type) where
  bytes : List β
  pos : Nat

/-- One call on the array: writes append, reads at the cursor give exactly the requested bytes or the
end-of-file error, `setLen` shortens or zero-extends. -/
def Arr.step (zero : β) (a : Arr β) : Op β → Option (Option (List β)) × Arr β
  | .write b => (none, { a with bytes := a.bytes ++ b })
  | .read n =>
    if n = 0 then (some (some []), a)
    else if a.pos + n ≤ a.bytes.length then
      (some (some ((a.bytes.drop a.pos).take n)), { a with pos := a.pos + n })
    else (some none, { a with pos := max a.pos a.bytes.length })
  | .seek p => (none, { a with pos := p })
  | .flush => (none, a)
  | .setLen n => (none, { a with bytes := osSetLen zero n a.bytes })

def Arr.run (zero : β) (a : Arr β) : List (Op β) → List (Option (Option (List β))) × Arr β
  | [] => ([], a)
  | o :: os => ((a.step zero o).1 :: ((a.step zero o).2.run zero os).1, ((a.step zero o).2.run zero os).2)

/-! ## Refinement -/

/-- The logical content. -/
def DF.content (d : DF β) : List β := d.file ++ d.wbuf

structure DF.Inv (d : DF β) : Prop where
  fend : d.fend = d.file.length
  inside : d.rstart + d.rbuf.length ≤ d.file.length
  same : d.rbuf = (d.file.drop d.rstart).take d.rbuf.length

theorem osRead_ok (file : List β) (s n : Nat) (h : s + n ≤ file.length) :
    osRead file s n = some ((file.drop s).take n) := if_pos h

theorem open_ok (R : Nat) (file : List β) :
    ∃ d, open_ R file = some d ∧ d.Inv ∧ d.content = file ∧ d.pos = 0 := by
  unfold open_
  by_cases h : file.length = 0
  · rw [if_pos h]
    refine ⟨_, rfl, ⟨h.symm, ?_, ?_⟩, ?_, rfl⟩
    · simp
    · simp
    · simp [DF.content]
  · rw [if_neg h, osRead_ok]
    · refine ⟨_, rfl, ⟨rfl, ?_, ?_⟩, ?_, rfl⟩
      · simp only [List.length_take, List.length_drop]; omega
      · simp [List.length_take]
      · simp [DF.content]
    · split <;> omega

theorem flush_ok {d : DF β} (h : d.Inv) :
    d.flush.Inv ∧ d.flush.content = d.content ∧ d.flush.pos = d.pos ∧ d.flush.wbuf = [] := by
  refine ⟨⟨?_, ?_, ?_⟩, ?_, rfl, rfl⟩
  · simp [DF.flush, h.fend]
  · have := h.inside; simp only [DF.flush, List.length_append]; omega
  · simp only [DF.flush]
    have h1 := h.inside
    rw [List.drop_append_of_le_length (by omega), List.take_append_of_le_length]
    · exact h.same
    · rw [List.length_drop]; omega
  · simp [DF.content, DF.flush]

theorem copyOut_ok {d : DF β} (h : d.Inv) {n : Nat} (hn : 0 < n) (h1 : d.rstart ≤ d.pos)
    (h2 : d.pos < d.rstart + d.rbuf.length) :
    ∃ b d', d.copyOut n = some (b, d') ∧ d'.Inv ∧ d'.content = d.content ∧ 0 < b.length ∧
      b.length ≤ n ∧ b = (d.content.drop d.pos).take b.length ∧ d'.pos = d.pos + b.length := by
  unfold DF.copyOut
  dsimp only
  generalize hs : (if d.rbuf.length < d.pos - d.rstart + n then d.rbuf.length - (d.pos - d.rstart)
    else n) = size
  have hb : 0 < size ∧ size ≤ n ∧ d.pos - d.rstart + size ≤ d.rbuf.length := by
    rw [← hs]; split <;> omega
  rw [if_neg (by omega)]
  have hl : ((d.rbuf.drop (d.pos - d.rstart)).take size).length = size := by
    rw [List.length_take, List.length_drop]; omega
  refine ⟨_, _, rfl, ⟨h.fend, h.inside, h.same⟩, rfl, ?_, ?_, ?_, ?_⟩
  · rw [hl]; exact hb.1
  · rw [hl]; exact hb.2.1
  · rw [hl]
    have hi := h.inside
    conv => lhs; rw [h.same]
    unfold DF.content
    rw [List.drop_append_of_le_length (by omega), List.take_append_of_le_length
      (by rw [List.length_drop]; omega)]
    rw [List.drop_take, List.take_take, List.drop_drop]
    congr 1
    · omega
    · congr 1; omega
  · rw [hl]

theorem read_ok {R : Nat} (hR : 2 ≤ R) {d : DF β} (h : d.Inv) {n : Nat} (hn : 0 < n) :
    ∃ b d', d.read R n = some (b, d') ∧ d'.Inv ∧ d'.content = d.content ∧ b.length ≤ n ∧
      (d.pos < d.content.length → 0 < b.length) ∧
      b = (d.content.drop d.pos).take b.length ∧ d'.pos = d.pos + b.length := by
  unfold DF.read
  rw [if_neg (by omega)]
  have hf := h.fend
  have hc : d.content.length = d.file.length + d.wbuf.length := by simp [DF.content]
  by_cases c1 : d.fend ≤ d.pos
  · rw [if_pos c1]
    unfold DF.readWbuf
    dsimp only
    by_cases c2 : d.pos - d.fend < d.wbuf.length
    · rw [if_pos c2]
      generalize hs : (if d.wbuf.length < d.pos - d.fend + n then d.wbuf.length - (d.pos - d.fend)
        else n) = size
      have hb : 0 < size ∧ size ≤ n ∧ d.pos - d.fend + size ≤ d.wbuf.length := by
        rw [← hs]; split <;> omega
      have hl : ((d.wbuf.drop (d.pos - d.fend)).take size).length = size := by
        rw [List.length_take, List.length_drop]; omega
      refine ⟨_, _, rfl, ⟨h.fend, h.inside, h.same⟩, rfl, ?_, ?_, ?_, ?_⟩
      · rw [hl]; exact hb.2.1
      · intro _; rw [hl]; exact hb.1
      · rw [hl]; unfold DF.content
        have hnil : d.file.drop d.pos = [] := List.drop_eq_nil_of_le (by omega)
        rw [List.drop_append, hnil, List.nil_append, hf]
      · rw [hl]
    · rw [if_neg c2]
      refine ⟨_, _, rfl, h, rfl, by simp, ?_, by simp, by simp⟩
      intro hp; omega
  · rw [if_neg c1]
    by_cases c2 : d.rstart ≤ d.pos ∧ d.pos < d.rstart + d.rbuf.length
    · rw [if_pos c2]
      obtain ⟨b, d', e, i, cc, p1, p2, p3, p4⟩ := copyOut_ok h hn c2.1 c2.2
      exact ⟨b, d', e, i, cc, p2, fun _ => p1, p3, p4⟩
    · rw [if_neg c2]
      unfold DF.readFill
      have hat : d.fillAt R ≤ d.pos ∧ d.fillAt R < d.fend ∧
          d.pos < d.fillAt R + (if d.fend - d.fillAt R < R then d.fend - d.fillAt R else R) := by
        unfold DF.fillAt
        split <;> split <;> omega
      rw [if_pos (by omega)]
      generalize hk : (if d.fend - d.fillAt R < R then d.fend - d.fillAt R else R) = k at hat ⊢
      have hkl : d.fillAt R + k ≤ d.file.length := by
        rw [← hf, ← hk]; split <;> omega
      rw [osRead_ok _ _ _ hkl]
      have hi : ({ d with rbuf := (d.file.drop (d.fillAt R)).take k, rstart := d.fillAt R } : DF β).Inv := by
        refine ⟨h.fend, ?_, ?_⟩
        · show d.fillAt R + ((d.file.drop (d.fillAt R)).take k).length ≤ d.file.length
          rw [List.length_take, List.length_drop]; omega
        · show (d.file.drop (d.fillAt R)).take k =
            (d.file.drop (d.fillAt R)).take ((d.file.drop (d.fillAt R)).take k).length
          have : ((d.file.drop (d.fillAt R)).take k).length = k := by
            rw [List.length_take, List.length_drop]; omega
          rw [this]
      obtain ⟨b, d', e, i, cc, p1, p2, p3, p4⟩ := copyOut_ok hi hn hat.1 (by
        show d.pos < d.fillAt R + ((d.file.drop (d.fillAt R)).take k).length
        rw [List.length_take, List.length_drop]; omega)
      exact ⟨b, d', e, i, cc, p2, fun _ => p1, p3, p4⟩

theorem readExact_ok {R : Nat} (hR : 2 ≤ R) : ∀ (fuel : Nat) {d : DF β}, d.Inv → ∀ (n : Nat) (acc : List β),
    n ≤ fuel →
    ∃ d', d'.Inv ∧ d'.content = d.content ∧
      (n = 0 → DF.readExact R fuel d n acc = some (some acc, d') ∧ d'.pos = d.pos) ∧
      (n ≠ 0 → d.pos + n ≤ d.content.length →
        DF.readExact R fuel d n acc = some (some (acc ++ (d.content.drop d.pos).take n), d') ∧
          d'.pos = d.pos + n) ∧
      (n ≠ 0 → ¬ d.pos + n ≤ d.content.length →
        DF.readExact R fuel d n acc = some (none, d') ∧ d'.pos = max d.pos d.content.length) := by
  intro fuel
  induction fuel with
  | zero =>
    intro d h n acc hn
    obtain rfl : n = 0 := by omega
    exact ⟨d, h, rfl, fun _ => ⟨by unfold DF.readExact; rfl, rfl⟩, fun x => absurd rfl x,
      fun x => absurd rfl x⟩
  | succ fuel ih =>
    intro d h n acc hn
    cases n with
    | zero =>
      exact ⟨d, h, rfl, fun _ => ⟨by unfold DF.readExact; rfl, rfl⟩, fun x => absurd rfl x,
        fun x => absurd rfl x⟩
    | succ n =>
      obtain ⟨b, d1, e, i, cc, p2, p1, p3, p4⟩ := read_ok hR h (n := n + 1) (by omega)
      simp only [DF.readExact, e]
      by_cases hb : b.length = 0
      · rw [if_pos hb]
        have hge : d.content.length ≤ d.pos := by
          rcases Nat.lt_or_ge d.pos d.content.length with hp | hp
          · have := p1 hp; omega
          · exact hp
        exact ⟨d1, i, cc, fun x => by omega, fun _ x => by omega, fun _ _ => ⟨rfl, by omega⟩⟩
      · rw [if_neg hb]
        obtain ⟨d2, i2, c2, r1, r2, r3⟩ := ih i (n + 1 - b.length) (acc ++ b) (by omega)
        have hbl : d.pos + b.length ≤ d.content.length := by
          have : b.length ≤ (d.content.drop d.pos).length := by
            rw [p3, List.length_take]; exact Nat.min_le_right _ _
          rw [List.length_drop] at this; omega
        rw [cc] at r2 r3
        refine ⟨d2, i2, c2.trans cc, fun x => by omega, fun _ hfit => ?_, fun _ hfit => ?_⟩
        · by_cases hz : n + 1 - b.length = 0
          · obtain ⟨q1, q2⟩ := r1 hz
            have hbn : b.length = n + 1 := by omega
            refine ⟨?_, by omega⟩
            rw [q1, ← hbn, ← p3]
          · obtain ⟨q1, q2⟩ := r2 hz (by omega)
            refine ⟨?_, by omega⟩
            rw [q1, List.append_assoc]
            congr 3
            have : n + 1 = b.length + (n + 1 - b.length) := by omega
            conv => rhs; rw [this, List.take_add, ← p3, List.drop_drop]
            rw [p4]
        · obtain ⟨q1, q2⟩ := r3 (by omega) (by omega)
          exact ⟨q1, by omega⟩

theorem room_ok {W : Nat} {d : DF β} (h : d.Inv) (hW : 0 < W) :
    (d.room W).Inv ∧ (d.room W).content = d.content ∧ (d.room W).pos = d.pos ∧
      (d.room W).wbuf.length < W := by
  unfold DF.room
  by_cases c : W ≤ d.wbuf.length
  · rw [if_pos c]
    obtain ⟨a, b, c, e⟩ := flush_ok h
    exact ⟨a, b, c, by rw [e]; exact hW⟩
  · rw [if_neg c]; exact ⟨h, rfl, rfl, by omega⟩

theorem write_ok {W : Nat} (hW : 0 < W) {d : DF β} (h : d.Inv) (b : List β) (hb : b ≠ []) :
    (d.write W b).2.Inv ∧ (d.write W b).2.content = d.content ++ b.take (d.write W b).1 ∧
      (d.write W b).2.pos = d.pos ∧ 0 < (d.write W b).1 ∧ (d.write W b).1 ≤ b.length := by
  obtain ⟨i, c, p, l⟩ := room_ok (W := W) h hW
  have hbl : 0 < b.length := List.length_pos_iff.mpr hb
  unfold DF.write
  dsimp only
  by_cases hc : b.length < W - (d.room W).wbuf.length
  · rw [if_pos hc]
    refine ⟨⟨i.fend, i.inside, i.same⟩, ?_, p, hbl, Nat.le_refl _⟩
    rw [← c]; simp [DF.content]
  · rw [if_neg hc]
    have i' : ({ d.room W with
        wbuf := (d.room W).wbuf ++ b.take (W - (d.room W).wbuf.length) } : DF β).Inv :=
      ⟨i.fend, i.inside, i.same⟩
    obtain ⟨a1, a2, a3, _⟩ := flush_ok i'
    refine ⟨a1, ?_, a3.trans p, by show 0 < W - _; omega, by show W - _ ≤ _; omega⟩
    rw [a2, ← c]; simp [DF.content]

theorem writeAll_ok {W : Nat} (hW : 0 < W) : ∀ (fuel : Nat) {d : DF β}, d.Inv → ∀ b : List β,
    b.length ≤ fuel →
    (d.writeAll W fuel b).Inv ∧ (d.writeAll W fuel b).content = d.content ++ b ∧
      (d.writeAll W fuel b).pos = d.pos := by
  intro fuel
  induction fuel with
  | zero =>
    intro d h b hb
    obtain rfl : b = [] := List.length_eq_zero_iff.mp (by omega)
    exact ⟨h, by simp [DF.writeAll], rfl⟩
  | succ fuel ih =>
    intro d h b hb
    cases b with
    | nil => exact ⟨h, by simp [DF.writeAll], rfl⟩
    | cons x xs =>
      obtain ⟨i, c, p, g1, g2⟩ := write_ok hW h (x :: xs) (by simp)
      simp only [DF.writeAll]
      obtain ⟨i2, c2, p2⟩ := ih i ((x :: xs).drop (d.write W (x :: xs)).1) (by
        rw [List.length_drop]; omega)
      refine ⟨i2, ?_, p2.trans p⟩
      rw [c2, c, List.append_assoc, List.take_append_drop]

theorem take_osSetLen (zero : β) (file : List β) (n s k : Nat) (h : s + k ≤ n) (h2 : s + k ≤ file.length) :
    ((osSetLen zero n file).drop s).take k = (file.drop s).take k := by
  unfold osSetLen
  rw [List.drop_append_of_le_length (by rw [List.length_take]; omega),
    List.take_append_of_le_length (by rw [List.length_drop, List.length_take]; omega),
    List.drop_take, List.take_take]
  congr 1; omega

theorem osSetLen_length (zero : β) (file : List β) (n : Nat) : (osSetLen zero n file).length = n := by
  unfold osSetLen
  rw [List.length_append, List.length_take, List.length_replicate]; omega

theorem setLen_ok {R : Nat} (zero : β) {d : DF β} (h : d.Inv) (n : Nat) :
    ∃ d', d.setLen R zero n = some d' ∧ d'.Inv ∧ d'.content = osSetLen zero n d.content ∧
      d'.pos = d.pos := by
  obtain ⟨i, c, p, w⟩ := flush_ok h
  have hcf : d.flush.file = d.content := by
    have := c; unfold DF.content at this ⊢; rw [w] at this; simpa using this
  have hlen := osSetLen_length zero d.content n
  unfold DF.setLen
  dsimp only
  rw [hcf]
  by_cases hc : n < d.flush.rstart + d.flush.rbuf.length
  · rw [if_pos hc]
    unfold DF.reload
    dsimp only
    by_cases hz : 0 < n
    · rw [if_pos hz, osRead_ok _ _ _ (by rw [hlen]; split <;> omega)]
      refine ⟨_, rfl, ⟨hlen.symm, ?_, ?_⟩, ?_, p⟩
      · dsimp only; rw [List.length_take, List.length_drop, hlen]; omega
      · dsimp only; rw [List.length_take, List.length_drop, hlen]
        rw [List.drop_zero]
        congr 1; split <;> omega
      · show osSetLen zero n d.content ++ d.flush.wbuf = _
        rw [w, List.append_nil]
    · rw [if_neg hz]
      refine ⟨_, rfl, ⟨hlen.symm, ?_, ?_⟩, ?_, p⟩
      · simp
      · simp
      · show osSetLen zero n d.content ++ d.flush.wbuf = _
        rw [w, List.append_nil]
  · rw [if_neg hc]
    refine ⟨_, rfl, ⟨hlen.symm, ?_, ?_⟩, ?_, p⟩
    · dsimp only; rw [hlen]; omega
    · dsimp only
      have := i.inside
      rw [hcf] at this
      rw [take_osSetLen _ _ _ _ _ (by omega) this, ← hcf]; exact i.same
    · show osSetLen zero n d.content ++ d.flush.wbuf = _
      rw [w, List.append_nil]

/-- Reading an array. -/
theorem step_ok {R W : Nat} (hR : 2 ≤ R) (hW : 0 < W) (zero : β) {d : DF β} (h : d.Inv) (o : Op β) :
    ∃ d', d.step R W zero o = some ((Arr.step zero ⟨d.content, d.pos⟩ o).1, d') ∧ d'.Inv ∧
      Arr.mk d'.content d'.pos = (Arr.step zero ⟨d.content, d.pos⟩ o).2 := by
  cases o with
  | write b =>
    obtain ⟨i, c, p⟩ := writeAll_ok hW b.length h b (Nat.le_refl _)
    exact ⟨_, rfl, i, by simp only [Arr.step]; rw [c, p]⟩
  | read n =>
    obtain ⟨d', i, c, r1, r2, r3⟩ := readExact_ok hR n h n [] (Nat.le_refl _)
    simp only [DF.step, Arr.step]
    by_cases h0 : n = 0
    · obtain ⟨q1, q2⟩ := r1 h0
      rw [if_pos h0, q1]
      exact ⟨d', rfl, i, by rw [c, q2]⟩
    · rw [if_neg h0]
      by_cases hf : d.pos + n ≤ d.content.length
      · obtain ⟨q1, q2⟩ := r2 h0 hf
        rw [if_pos hf, q1]
        exact ⟨d', by simp, i, by rw [c, q2]⟩
      · obtain ⟨q1, q2⟩ := r3 h0 hf
        rw [if_neg hf, q1]
        exact ⟨d', rfl, i, by rw [c, q2]⟩
  | seek p => exact ⟨_, rfl, ⟨h.fend, h.inside, h.same⟩, rfl⟩
  | flush =>
    obtain ⟨i, c, p, _⟩ := flush_ok h
    exact ⟨_, rfl, i, by simp only [Arr.step]; rw [c, p]⟩
  | setLen n =>
    obtain ⟨d', e, i, c, p⟩ := setLen_ok (R := R) zero h n
    simp only [DF.step, e, Arr.step]
    exact ⟨d', rfl, i, by rw [c, p]⟩

theorem run_ok {R W : Nat} (hR : 2 ≤ R) (hW : 0 < W) (zero : β) : ∀ (os : List (Op β)) {d : DF β}, d.Inv →
    ∃ d', d.run R W zero os = some ((Arr.run zero ⟨d.content, d.pos⟩ os).1, d') ∧ d'.Inv ∧
      Arr.mk d'.content d'.pos = (Arr.run zero ⟨d.content, d.pos⟩ os).2 := by
  intro os
  induction os with
  | nil => intro d h; exact ⟨d, rfl, h, rfl⟩
  | cons o os ih =>
    intro d h
    obtain ⟨d1, e1, i1, a1⟩ := step_ok hR hW zero h o
    obtain ⟨d2, e2, i2, a2⟩ := ih i1
    rw [a1] at e2 a2
    refine ⟨d2, ?_, i2, ?_⟩
    · simp only [DF.run, e1, e2, Arr.run]
    · rw [a2]; rfl

/-- **C47.** Whatever the calls, their sizes and the sizes of the buffers, a buffered file opened on some
bytes answers exactly like a byte array with a cursor: no call panics or reads outside the file, every
`read_exact` returns the bytes that were written (or the end-of-file error), and the length is the
array's. -/
theorem file_is_array {R W : Nat} (hR : 2 ≤ R) (hW : 0 < W) (zero : β) (file : List β) (os : List (Op β)) :
    ∃ d0 d, open_ R file = some d0 ∧
      d0.run R W zero os = some ((Arr.run zero ⟨file, 0⟩ os).1, d) ∧
      d.len = (Arr.run zero ⟨file, 0⟩ os).2.bytes.length := by
  obtain ⟨d0, e0, i0, c0, p0⟩ := open_ok R file
  obtain ⟨d, e, i, a⟩ := run_ok hR hW zero os i0
  rw [c0, p0] at e a
  refine ⟨d0, d, e0, e, ?_⟩
  rw [← a, DF.len, i.fend]; simp [DF.content]

/-- What a crash leaves: the operating system's file, always a prefix of the bytes written, and all of
them when the last call was a flush. -/
theorem crash_prefix {R W : Nat} (hR : 2 ≤ R) (hW : 0 < W) (zero : β) (file : List β) (os : List (Op β)) :
    ∃ d0 d rs, open_ R file = some d0 ∧ d0.run R W zero os = some (rs, d) ∧
      d.file <+: (Arr.run zero ⟨file, 0⟩ os).2.bytes ∧
      (d.flush).file = (Arr.run zero ⟨file, 0⟩ os).2.bytes := by
  obtain ⟨d0, e0, i0, c0, p0⟩ := open_ok R file
  obtain ⟨d, e, i, a⟩ := run_ok hR hW zero os i0
  rw [c0, p0] at e a
  refine ⟨d0, d, _, e0, e, ?_, ?_⟩
  · rw [← a]; exact ⟨d.wbuf, rfl⟩
  · rw [← a]; rfl

/-- Non-vacuity: reads across the file, the read buffer and the write buffer, after a truncation. -/
example : (((open_ 4 [1, 2, 3, 4, 5, 6, 7, 8, 9]).bind fun d =>
    d.run 4 3 0 [.seek 5, .read 3, .write [10, 11, 12, 13], .seek 7, .read 5, .setLen 4, .seek 1,
      .read 3, .write [20], .seek 3, .read 2, .read 1]).map (·.1)) =
    some [none, some (some [6, 7, 8]), none, none, some (some [8, 9, 10, 11, 12]), none, none,
      some (some [2, 3, 4]), none, none, some (some [4, 20]), some none] := by decide

end DataFile
end Verif
