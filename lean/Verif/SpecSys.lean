/-!
# Specification: system calls and the resources they create

A trace lists the calls made with their results, newest first.
-/

namespace Lib842.Spec

/-- The library and system calls of the cryptodev wrapper that create or release something, or
can fail. -/
inductive Sys
  /-- `open("/dev/crypto")` -/
  | open
  /-- `fcntl(fd, F_SETFD, FD_CLOEXEC)` -/
  | setfd (fd : Nat)
  /-- `ioctl(fd, CIOCGSESSION)` -/
  | gsession (fd : Nat)
  /-- `ioctl(fd, CIOCGSESSINFO)` -/
  | sessinfo (fd ses : Nat)
  /-- `ioctl(fd, CIOCFSESSION)` -/
  | fsession (fd ses : Nat)
  /-- `ioctl(fd, CIOCCRYPT)` -/
  | crypt (fd ses : Nat)
  | close (fd : Nat)
  | malloc
  | free (p : Nat)
  | tssCreate
  | tssSet (p : Nat)
  deriving DecidableEq, Repr

/-- The result of a call: it succeeds with a value, or fails and sets `errno`, to `e + 1`. -/
inductive Resp
  | ok (v : Nat)
  | fail (e : Nat)
  deriving DecidableEq, Repr

/-- The calls made with their results, newest first. -/
abbrev SysTr := List (Sys × Resp)

/-- Descriptors opened and not closed.  `close` releases the descriptor also if it reports an
error, as on Linux. -/
def openFds : SysTr → List Nat
  | [] => []
  | (.open, .ok fd) :: tr => fd :: openFds tr
  | (.close fd, _) :: tr => (openFds tr).erase fd
  | _ :: tr => openFds tr

/-- Sessions created and not finished, with their descriptors. -/
def openSessions : SysTr → List (Nat × Nat)
  | [] => []
  | (.gsession fd, .ok ses) :: tr => (fd, ses) :: openSessions tr
  | (.fsession fd ses, _) :: tr => (openSessions tr).erase (fd, ses)
  | _ :: tr => openSessions tr

/-- Memory allocated and not freed. -/
def openMem : SysTr → List Nat
  | [] => []
  | (.malloc, .ok p) :: tr => p :: openMem tr
  | (.free p, _) :: tr => (openMem tr).erase p
  | _ :: tr => openMem tr

/-- Calls are made only on open descriptors and sessions, and memory is freed only while
allocated. -/
def SysOk : SysTr → Prop
  | [] => True
  | (c, _) :: tr => SysOk tr ∧
    match c with
    | .setfd fd | .gsession fd | .close fd => fd ∈ openFds tr
    | .sessinfo fd ses | .fsession fd ses | .crypt fd ses => fd ∈ openFds tr ∧ (fd, ses) ∈ openSessions tr
    | .free p => p ∈ openMem tr
    | _ => True

/-! ## Several threads -/

/-- What can be held: descriptors, sessions, memory. -/
inductive Held
  | fd (fd : Nat)
  | ses (fd ses : Nat)
  | mem (p : Nat)
  deriving DecidableEq, Repr

/-- What a call needs. -/
def Sys.uses : Sys → List Held
  | .setfd fd | .gsession fd | .close fd => [.fd fd]
  | .sessinfo fd ses | .fsession fd ses | .crypt fd ses => [.fd fd, .ses fd ses]
  | .free p | .tssSet p => [.mem p]
  | .open | .malloc | .tssCreate => []

/-- What a call creates. -/
def Sys.gains : Sys → Resp → Option Held
  | .open, .ok fd => some (.fd fd)
  | .gsession fd, .ok ses => some (.ses fd ses)
  | .malloc, .ok p => some (.mem p)
  | _, _ => none

/-- What a call releases, also if it reports an error. -/
def Sys.loses : Sys → Option Held
  | .fsession fd ses => some (.ses fd ses)
  | .close fd => some (.fd fd)
  | .free p => some (.mem p)
  | _ => none

/-- The calls of all threads with the numbers of the threads, newest first. -/
abbrev ThreadTr := List (Nat × Sys × Resp)

/-- The thread that has created `x`, until it is released. -/
def holder : ThreadTr → Held → Option Nat
  | [], _ => none
  | (t, c, r) :: tr, x =>
    if c.gains r = some x then some t else if c.loses = some x then none else holder tr x

/-- The system hands out only what nobody holds. -/
def Fresh (tr : ThreadTr) (c : Sys) (r : Resp) : Prop := ∀ x, c.gains r = some x → holder tr x = none

/-- Every thread uses and releases only what it has created itself and not released yet. -/
def Isolated : ThreadTr → Prop
  | [] => True
  | (t, c, _) :: tr => Isolated tr ∧ ∀ x ∈ c.uses, holder tr x = some t

end Lib842.Spec
