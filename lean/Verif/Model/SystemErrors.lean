import Verif.Model.ErrorDomain
import Verif.Model.StringViewMake
/-
The error codes of /repo/include/solace/posixErrorDomain.hpp and the domain of system errors, /repo/src/systemErrorDomain.cpp.
-/
namespace Solace.SystemErrors

/-- `enum class GenericError`, posixErrorDomain.hpp:50-85: the enumerators and their values. -/
def generic : List (String × Nat) :=
  [("PERM", 1), ("NOENT", 2), ("SRCH", 3), ("INTR", 4), ("IO", 5), ("NXIO", 6), ("TooBig", 7), ("NOEXEC", 8), ("BADF", 9),
   ("CHILD", 10), ("AGAIN", 11), ("NOMEM", 12), ("ACCES", 13), ("FAULT", 14), ("NOTBLK", 15), ("BUSY", 16), ("EXIST", 17),
   ("XDEV", 18), ("NODEV", 19), ("NOTDIR", 20), ("ISDIR", 21), ("INVAL", 22), ("NFILE", 23), ("MFILE", 24), ("NOTTY", 25),
   ("TXTBSY", 26), ("FBIG", 27), ("NOSPC", 28), ("SPIPE", 29), ("ROFS", 30), ("MLINK", 31), ("PIPE", 32), ("DOM", 33),
   ("RANGE", 34)]

/-- `enum class SystemErrors`, posixErrorDomain.hpp:88-192. -/
def system : List (String × Nat) :=
  [("DEADLOCK", 35), ("NameTooLong", 36), ("NoLock", 37), ("NoSys", 38), ("NOTEMPTY", 39), ("LOOP", 40), ("WOULDBLOCK", 11),
   ("NOMSG", 42), ("IDRM", 43), ("CHRNG", 44), ("L2NSYNC", 45), ("L3HLT", 46), ("L3RST", 47), ("LNRNG", 48), ("UNATCH", 49),
   ("NOCSI", 50), ("L2HLT", 51), ("BADE", 52), ("BADR", 53), ("XFULL", 54), ("NOANO", 55), ("BADRQC", 56), ("BADSLT", 57),
   ("BFONT", 59), ("NOSTR", 60), ("NODATA", 61), ("TIME", 62), ("NOSR", 63), ("NONET", 64), ("NOPKG", 65), ("REMOTE", 66),
   ("NOLINK", 67), ("ADV", 68), ("SRMNT", 69), ("COMM", 70), ("PROTO", 71), ("MULTIHOP", 72), ("DOTDOT", 73), ("BADMSG", 74),
   ("Overflow", 75), ("NOTUNIQ", 76), ("BADFD", 77), ("REMCHG", 78), ("LIBACC", 79), ("LIBBAD", 80), ("LIBSCN", 81),
   ("LIBMAX", 82), ("LIBEXEC", 83), ("ILSEQ", 84), ("RESTART", 85), ("STRPIPE", 86), ("USERS", 87), ("NOTSOCK", 88),
   ("DESTADDRREQ", 89), ("MSGSIZE", 90), ("PROTOTYPE", 91), ("NOPROTOOPT", 92), ("PROTONOSUPPORT", 93),
   ("SOCKTNOSUPPORT", 94), ("OPNOTSUPP", 95), ("PFNOSUPPORT", 96), ("AFNOSUPPORT", 97), ("ADDRINUSE", 98),
   ("ADDRNOTAVAIL", 99), ("NETDOWN", 100), ("NETUNREACH", 101), ("NETRESET", 102), ("CONNABORTED", 103), ("CONNRESET", 104),
   ("NOBUFS", 105), ("ISCONN", 106), ("NOTCONN", 107), ("SHUTDOWN", 108), ("TOOMANYREFS", 109), ("TIMEDOUT", 110),
   ("CONNREFUSED", 111), ("HOSTDOWN", 112), ("HOSTUNREACH", 113), ("ALREADY", 114), ("INPROGRESS", 115), ("STALE", 116),
   ("UCLEAN", 117), ("NOTNAM", 118), ("NAVAIL", 119), ("ISNAM", 120), ("REMOTEIO", 121), ("DQUOT", 122), ("NOMEDIUM", 123),
   ("MEDIUMTYPE", 124), ("CANCELED", 125), ("NOKEY", 126), ("KEYEXPIRED", 127), ("KEYREVOKED", 128), ("KEYREJECTED", 129),
   ("OWNERDEAD", 130), ("NOTRECOVERABLE", 131), ("RFKILL", 132), ("HWPOISON", 133)]

/-- `makeError(GenericError, tag)` and `makeError(SystemErrors, tag)`, posixErrorDomain.hpp:212-220, with the enumerator of that
name; `none` when there is none. -/
def makeNamed (table : List (String × Nat)) (name : String) (tag : List Byte) : Option ErrorValue :=
  (table.lookup name).map fun v => ErrorValue.makeError (BitVec.ofNat 32 v) tag

/-- `makeErrno`, systemErrorDomain.cpp:57-66, with `makeSystemError`, posixErrorDomain.hpp:195-204: `errno` is the value of that
variable; the tag is empty when there is no argument (error.hpp). -/
def makeErrno (errno : BitVec 32) (tag : Option (List Byte)) : ErrorValue := ErrorValue.makeError errno (tag.getD [])

/-- `"PosixSystemError: Failed to get error string"`. -/
def fallback : List Byte :=
  [0x50, 0x6f, 0x73, 0x69, 0x78, 0x53, 0x79, 0x73, 0x74, 0x65, 0x6d, 0x45, 0x72, 0x72, 0x6f, 0x72, 0x3a, 0x20, 0x46, 0x61, 0x69,
   0x6c, 0x65, 0x64, 0x20, 0x74, 0x6f, 0x20, 0x67, 0x65, 0x74, 0x20, 0x65, 0x72, 0x72, 0x6f, 0x72, 0x20, 0x73, 0x74, 0x72, 0x69,
   0x6e, 0x67]

/-- `SystemErrorDomain::message`, systemErrorDomain.cpp:43-49. `strerror` gives the memory from the address the C function returns
on. `makeString` of a literal takes no memory. The function is `noexcept`. -/
def message (alloc : Nat → Except Err MutView) (strerror : BitVec 32 → Option (List Byte)) (code : BitVec 32) : Outcome Str :=
  (((Make.ofCString (strerror code)).bind Make.SV.chars).bind fun text =>
    match Str.make alloc text with
    | .ok s => .ok s
    | .error _ => .ok ⟨fallback, fallback.length⟩).noexcept

end Solace.SystemErrors
