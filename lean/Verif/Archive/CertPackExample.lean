import Verif.Archive.CertPackProps
import Verif.Archive.HdxCrash
/-
The certificate pack's index is the digest index of `Verif.Hdx`; concrete runs of the pack, with the two
ways in which an index entry comes to lead to nothing.
-/
namespace Verif
namespace CertPack

/-- What the pack uses of the digest index. -/
def view (P : Hdx.Params) (s : Hdx.Idx) (n : Nat) : Snap :=
  { raw := s.raw P, vis := Hdx.contains P s.bits, len := n }

theorem hdx_load (P : Hdx.Params) (s : Hdx.Idx) (n k : Nat) : (view P s n).load k = s.load P k := by
  unfold Snap.load Hdx.Idx.load view Hdx.Idx.raw
  rfl

/-- `HdxIndex::save` is `Snap.save`, with the other digests that the filter now lets through as `extra`. -/
theorem hdx_save (P : Hdx.Params) (fuel : Nat) (s : Hdx.Idx) (hs : s.Placed P) (n k p : Nat) :
    ∃ s' extra, s.save P fuel k p = some s' ∧ s'.Placed P ∧ view P s' n = (view P s n).save k p extra := by
  obtain ⟨s', e, h1, h2, h3⟩ := Hdx.save_placed (fuel := fuel) hs k p
  refine ⟨s', Hdx.contains P s'.bits, e, h1, ?_⟩
  have hraw : s'.raw P = fun j => if j = k then some p else s.raw P j := funext h3
  have hvis : Hdx.contains P s'.bits =
      fun j => Hdx.contains P s.bits j || Hdx.contains P s'.bits j || decide (j = k) := by
    funext j
    have hm : Hdx.contains P s.bits j = true → Hdx.contains P s'.bits j = true := by
      intro h; rw [h2]; exact Hdx.contains_accrue P s.bits k j (Or.inr h)
    have hk : j = k → Hdx.contains P s'.bits j = true := by
      intro h; rw [h2]; exact Hdx.contains_accrue P s.bits k j (Or.inl h)
    cases h : Hdx.contains P s'.bits j with
    | true => simp
    | false =>
      have h4 : Hdx.contains P s.bits j = false := by
        cases h5 : Hdx.contains P s.bits j with
        | false => rfl
        | true => rw [hm h5] at h; cases h
      have h6 : ¬ j = k := fun h5 => by rw [hk h5] at h; cases h
      rw [h4]; simp [h6]
  show ({ raw := s'.raw P, vis := Hdx.contains P s'.bits, len := n } : Snap) =
    { raw := fun j => if j = k then some p else s.raw P j,
      vis := fun j => Hdx.contains P s.bits j || Hdx.contains P s'.bits j || decide (j = k), len := n }
  rw [hraw]
  exact congrArg (fun v => ({ raw := fun j => if j = k then some p else s.raw P j, vis := v,
                              len := n } : Snap)) hvis

/-! ## Runs -/
namespace Ex

def c1 : Cert := { digest := 1, body := 10, size := 100 }
def c1b : Cert := { digest := 1, body := 11, size := 90 }
def c2 : Cert := { digest := 2, body := 20, size := 100 }
def c3 : Cert := { digest := 3, body := 30, size := 60 }

def ok : Out := { save := .fine (fun _ => false), persist := .fine, junk := fun _ => none }

/-- Everything synced, or nothing of what was not. -/
def plain : Restart :=
  { tail := [], written := false, pick := fun _ => 0, lost := fun _ => false, seen := fun _ => false,
    lenPick := 0, readOnly := false }

/-- Two certificates of one header and another one, then a flush. -/
def saves : List Ev :=
  [.push (.save c1), .push (.save c1b), .push (.save c2), .push .persist,
   .work ok, .work ok, .work ok, .work ok]

/-- The flush answers without error, the first certificate of the header is kept, and after a crash in
the middle of writing a third one (a damaged tail) both are still there, and the third is not. -/
theorem example_barrier :
    (run init saves).replies = [(3, .flushed none)] ∧
    (run init saves).inner.get (fun _ => none) 1 = some c1 ∧
    (run init saves).inner.get (fun _ => none) 2 = some c2 ∧
    (run init saves).inner.file.length = 2 ∧
    (run init (saves ++ [.push (.save c3), .work ok, .restart { plain with tail := [.junk 30] }])).inner.get
      (fun _ => none) 1 = some c1 ∧
    (run init (saves ++ [.push (.save c3), .work ok, .restart { plain with tail := [.junk 30] }])).inner.get
      (fun _ => none) 3 = none ∧
    (run init (saves ++ [.push (.save c3), .work ok, .restart { plain with tail := [.junk 30] }])).inner.file
      = [.rec_ c1, .rec_ c2] := by decide +kernel

/-- The hypotheses of `flush_is_barrier`, `flush_is_barrier_clean` and `get_saved` are met by that run. -/
theorem example_hyps :
    (3, Reply.flushed none) ∈ (run init saves).replies ∧ (run init saves).pushed[1]? = some (.save c1b) ∧
    SoundAt (run init saves).opened c1b.digest ∧ (run init saves).opened.readOnly = false ∧
    Along (fun s e => e.clean s) init
      (saves ++ [.push (.save c3), .work ok, .restart { plain with tail := [.junk 30] }]) ∧
    Along (fun s e => e.legal s) init
      (saves ++ [.push (.save c3), .work ok, .restart { plain with tail := [.junk 30] }]) := by
  refine ⟨by decide +kernel, rfl, (fun p hp => by cases hp), rfl, ?_, ?_⟩
  · exact ⟨trivial, trivial, trivial, trivial, trivial, trivial, trivial, trivial, trivial, trivial,
      ⟨rfl, (fun h => by cases h)⟩, trivial⟩
  · refine ⟨trivial, trivial, trivial, trivial, trivial, trivial, trivial, trivial, trivial, trivial,
      ?_, trivial⟩
    intro c hc
    cases List.mem_singleton.1 hc

/-- The disk is full for the second certificate; a certificate, a flush and the shutdown that follow. -/
def full : Out := { ok with save := .write 28 5 }

def failing : List Ev :=
  [.push (.save c1), .push (.save c2), .push (.save c3), .push .persist, .push .shutdownAsync,
   .work ok, .work full, .work ok, .work ok, .work ok]

/-- The first error is kept and reported by the flush and the shutdown. -/
theorem example_error :
    (run init failing).err = some (.append 28) ∧
    (run init failing).replies =
      [(3, .flushed (some (.append 28))), (4, .flushed (some (.append 28)))] ∧
    (run init failing).running = false := by decide +kernel

/-- **Finding, first way.** After the failed write the index is still written when the pack is dropped, with
the entry of the first certificate, whose bytes were only in the write buffer (`written`, empty `tail`). The
index is then ahead of the data and `open` does not repair it. -/
def ahead : Restart := { plain with written := true, seen := fun k => k = 1 }

def again : List Ev :=
  [.push (.save c1), .push .persist, .push (.save c2), .push (.contains 1), .push (.get 1),
   .work ok, .work ok, .work ok, .work ok, .work ok]

theorem index_ahead :
    Dangling (run init (failing ++ [.restart ahead])).inner 1 ∧
    (run init (failing ++ [.restart ahead])).inner.file = [] ∧
    (run init (failing ++ [.restart ahead] ++ again)).err = none ∧
    (run init (failing ++ [.restart ahead] ++ again)).replies =
      [(1, .flushed none), (3, .has true), (4, .got none)] ∧
    (run init (failing ++ [.restart ahead] ++ again)).inner.file = [.rec_ c2] := by
  refine ⟨⟨28, by decide +kernel, ?_⟩, by decide +kernel, by decide +kernel, by decide +kernel,
    by decide +kernel⟩
  intro c hc
  have : recAt (run init (failing ++ [.restart ahead])).inner.file 28 = none := by decide +kernel
  rw [this] at hc; cases hc

/-- **Finding, second way.** A crash while the index is being synced, with the bucket of the first certificate
on the disk and the header not: the data is cut back to the length in the old header. -/
def torn : List Ev :=
  [.push (.save c1), .push .persist, .work ok, .work { ok with persist := .index 5 }]

/-- The data is on the disk, version 0 of the entries (the new one) is found, and the old length. -/
def half : Restart :=
  { plain with pick := fun _ => 0, lenPick := 9, seen := fun k => k = 1 }

theorem cut_below_index :
    Dangling (run init (torn ++ [.restart half])).inner 1 ∧
    (run init torn).inner.file = [.rec_ c1] ∧
    (run init (torn ++ [.restart half])).inner.file = [] ∧
    (run init (torn ++ [.restart half] ++ again)).replies =
      [(1, .flushed none), (3, .has true), (4, .got none)] := by
  refine ⟨⟨28, by decide +kernel, ?_⟩, by decide +kernel, by decide +kernel, by decide +kernel⟩
  intro c hc
  have : recAt (run init (torn ++ [.restart half])).inner.file 28 = none := by decide +kernel
  rw [this] at hc; cases hc

/-- The consensus task: accepted, refused with the latched error, given up when the thread has ended. -/
theorem example_offer :
    (offer true init none c1).1 = true ∧ (offer true init none c1).2.pushed = [.save c1] ∧
    (offer true (Sys.refused .new (.open_ 1) []) (some (.open_ 1)) c1).1 = true ∧
    (offer true (run init failing) none c1).1 = false := by decide +kernel

end Ex
end CertPack
end Verif
