#!/usr/bin/env python3
"""Replays the repository's snapshot tests (conversion, syntax tree, macro expansion) on the Lean model.
Usage: conformance.py; needs a built /verif/lean. Prints mismatches."""
import re,subprocess,glob,os
R='/repo/crates'
def literal(s,p):
    m=re.match(r'r(#*)"',s[p:])
    if m:
        h=m.group(1); st=p+len(m.group(0)); e=s.index('"'+h,st); return s[st:e],e+1+len(h)
    if s[p]=='"':
        q=p+1;out=''
        while s[q]!='"':
            if s[q]=='\\':
                c=s[q+1]
                if c=='\n':
                    q+=2
                    while s[q] in ' \t\n': q+=1
                    continue
                out+={'n':'\n','t':'\t','r':'\r','0':'\0'}.get(c,c); q+=2
            else: out+=s[q]; q+=1
        return out,q+1
    return None
def cases(f,pat):
    s=open(f).read()
    for m in re.finditer(pat,s):
        r=literal(s,m.end())
        if not r: continue
        inp,p=r
        ln=s.rfind('\n',0,m.start())+1
        if '//' in s[ln:m.start()]: continue
        m2=re.match(r'\s*\)(\.unwrap_err\(\)|\.unwrap\(\))?\s*,\s*@',s[p:])
        if not m2: continue
        exp,_=literal(s,p+len(m2.group(0)))
        yield m.group(1),inp,m2.group(1) or '',exp,f
def norm(e):
    e=e.replace('\r\n','\n')
    L=e.split('\n')
    if len(L)>1:
        ind=min([len(l)-len(l.lstrip()) for l in L[1:] if l.strip()] or [0])
        L=[l[ind:] if i>0 else l for i,l in enumerate(L)]
    return '\n'.join(l.rstrip() for l in L).strip()
def lit(s): return '"'+''.join({'"':'\\"','\\':'\\\\','\n':'\\n','\t':'\\t','\r':'\\r','\x02':'\\x02'}.get(c,c) for c in s)+'"'
T=[]
for f in glob.glob(R+'/mitex/tests/**/*.rs',recursive=True):
    for k,i,u,e,ff in cases(f,r'assert_snapshot!\((convert_math|convert_text)\('): T.append((k,i,u,e,ff))
for f in glob.glob(R+'/mitex-parser/tests/**/*.rs',recursive=True):
    for k,i,u,e,ff in cases(f,r'assert_debug_snapshot!\((parse)\('): T.append((k,i,u,e,ff))
for f in glob.glob(R+'/mitex-lexer/tests/*.rs'):
    for k,i,u,e,ff in cases(f,r'assert_snapshot!\((tokens|plain_tokens|assert_plain_tokens)\('): T.append((k,i,u,e,ff))
for f in [R+'/mitex-glob/src/lib.rs',R+'/mitex-parser/src/arg_match.rs']:
    src=open(f).read()
    for m in re.finditer(r'assert!\(\s*(!?)(glob_match_prefix|glob_match)\(\s*',src):
        if '//' in src[src.rfind('\n',0,m.start())+1:m.start()]: continue
        r=literal(src,m.end())
        if not r: continue
        a,p=r
        m2=re.match(r'\s*,\s*',src[p:])
        r=literal(src,p+len(m2.group(0)))
        if not r: continue
        T.append((m.group(2),a+'\x02'+r[0],'','false' if m.group(1) else 'true',f))
print(len(T),'cases')
lean='''import Verif.Model.Convert
import Verif.Model.StandardSpec
open Mitex
def kn : Kind → String
'''
km=re.findall(r'SyntaxKind::(\w+) => "([^"]*)"',open(R+'/mitex-parser/tests/common/mod.rs').read())
for k,v in km: lean+='  | .%s => "%s"\n'%(k[0].lower()+k[1:],v)
lean+='''
def dbg (t : Text) : String := String.ofList (debugText t)
def showTok (k : Kind) (t : Text) : String := Id.run do
  if byteLen t < 25 then return kn k ++ "(" ++ dbg t ++ ")"
  for i in [21,22,23,24] do
    match takeBytes i t with
    | some u => return kn k ++ "(" ++ dbg u ++ "..)"
    | none => pure ()
  return "?"
partial def showNode (lvl : Nat) (k : Kind) (cs : List Elem) : String := Id.run do
  let mut o := kn k
  if cs.all (!·.isNode) then
    return o ++ "(" ++ ",".intercalate (cs.map fun c => match c with | .token k t => showTok k t | _ => "?") ++ ")\\n"
  o := o ++ "\\n"
  for c in cs do
    o := o ++ String.ofList (List.replicate (lvl+1) '|')
    match c with
    | .token k t => o := o ++ showTok k t ++ "\\n"
    | .node k cs => o := o ++ showNode (lvl+1) k cs
  return o
def bk : BraceKind → String | .curly => "Curly" | .bracket => "Bracket" | .paren => "Paren"
def ifn : IfName → String
  | .if_ => "If" | .ifTypst => "IfTypst" | .ifFalse => "IfFalse" | .ifTrue => "IfTrue" | .ifCase => "IfCase" | .ifNum => "IfNum" | .ifCat => "IfCat" | .ifX => "IfX" | .ifVoid => "IfVoid" | .ifHBox => "IfHBox" | .ifVBox => "IfVBox" | .ifHMode => "IfHMode" | .ifMMode => "IfMMode" | .ifVMode => "IfVMode" | .ifInner => "IfInner" | .ifDim => "IfDim" | .ifEof => "IfEof" | .ifStar => "IfStar"
def cn : CommandName → String
  | .generic => "Generic" | .beginEnv => "BeginEnvironment" | .endEnv => "EndEnvironment" | .beginMath => "BeginMath" | .endMath => "EndMath" | .errorBeginEnv => "ErrorBeginEnvironment" | .errorEndEnv => "ErrorEndEnvironment" | .cif i => "If(" ++ ifn i ++ ")" | .celse => "Else" | .endIf => "EndIf" | .left => "Left" | .right => "Right"
def tn : Token → String
  | .lineBreak => "LineBreak" | .whitespace => "Whitespace" | .lineComment => "LineComment" | .left b => "Left(" ++ bk b ++ ")" | .right b => "Right(" ++ bk b ++ ")" | .comma => "Comma" | .tilde => "Tilde" | .slash => "Slash" | .ampersand => "Ampersand" | .caret => "Caret" | .apostrophe => "Apostrophe" | .ditto => "Ditto" | .semicolon => "Semicolon" | .hash => "Hash" | .asterisk => "Asterisk" | .atSign => "AtSign" | .underscore => "Underscore" | .word => "Word" | .dollar => "Dollar" | .newLine => "NewLine" | .cmd n => "CommandName(" ++ cn n ++ ")" | .error => "Error" | .macroArg n => "MacroArg(" ++ toString n ++ ")"
def showT (t : Tok) : String := tn t.1 ++ "(" ++ dbg t.2 ++ ")"
def sh : Res Text → String
  | .ok t => String.ofList t | .error (.error m) => "error: " ++ String.ofList m | .error e => "!!" ++ toString (repr e)
def shT : Res (List Tok) → String
  | .ok t => "\\n".intercalate (t.map showT) | .error e => "!!" ++ toString (repr e)
def run (k : String) (i : String) : String :=
  if k == "convert_math" then sh (convertMath 10000 defaultSpec i.toList none)
  else if k == "convert_text" then sh (convertText 10000 defaultSpec i.toList none)
  else if k == "parse" then match parse 10000 ⟨defaultSpec, globPrefix⟩ true i.toList with
    | .ok (.node k cs) => showNode 0 k cs
    | .ok _ => "?"
    | .error e => "!!" ++ toString (repr e)
  else if k == "tokens" then match tokensOf defaultSpec i.toList with
    | .ok t => shT (expandAll 10000 t) | .error e => "!!" ++ toString (repr e)
  else if k == "glob_match" || k == "glob_match_prefix" then
    match i.splitOn "\x02" with
    | [a, b] => match (if k == "glob_match" then Glob.matchFull else Glob.matchPrefix) 100000 a.toList b.toList with
      | .ok b => toString b
      | .error e => "!!" ++ toString (repr e)
    | _ => "?"
  else shT (tokensOf defaultSpec i.toList)
def cases : List (String × String) := [
'''
lean+=',\n'.join('(%s, %s)'%(lit(k),lit(i)) for k,i,u,e,f in T)
lean+=''']
def main : IO Unit := do
  for (k, i) in cases do
    IO.println ("\\x01" ++ run k i)
'''
open('/tmp/conf.lean','w').write(lean)
r=subprocess.run(['lake','env','lean','--run','/tmp/conf.lean'],cwd='/verif/lean',capture_output=True,text=True)
if r.returncode: print(r.stdout[:3000],r.stderr[:3000])
outs=r.stdout.split('\x01')[1:]
bad=0
for (k,i,u,e,f),o in zip(T,outs):
    if norm(e)!=norm(o):
        bad+=1
        print('=== MISMATCH',os.path.basename(f),k,repr(i)); print('--- expected');print(norm(e));print('--- model');print(norm(o))
print(len(outs),'run',bad,'mismatches')
